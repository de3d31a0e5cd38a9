import Verif.Proofs.Taper
import Verif.Proofs.SiteAdjoint
import Verif.Proofs.GInt

/-!
# Lemmas on sectors and on the basis change used for tapering
-/

set_option linter.unusedSectionVars false

namespace HQCA
variable {K : Type} [Coef K]

namespace Taper

/-! ### Sectors -/

/-- The eigenspaces of a non-identity letter are one-dimensional. -/
theorem eig_det (p : PL) (hp : p ≠ .I) (e : K) (u v : Bool → K) (hu : IsEig p e u) (hv : IsEig p e v) :
    u false * v true = u true * v false := by
  have u0 := hu false
  have u1 := hu true
  have v0 := hv false
  have v1 := hv true
  cases p with
  | I => exact absurd rfl hp
  | X =>
    simp only [mapp, pmat, mX_ff, mX_ft, mX_tf, mX_tt, zero_mul, one_mul, zero_add, add_zero] at u0 u1 v0 v1
    rw [u0, v0]; ring
  | Y =>
    simp only [mapp, pmat, mY_ff, mY_ft, mY_tf, mY_tt, zero_mul, zero_add, add_zero] at u0 u1 v0 v1
    have hI := (Coef.I_mul_I : (I : K) * I = -1)
    have a1 : u true = I * (e * u false) := by rw [← u0]; linear_combination u true * hI
    have b1 : v true = I * (e * v false) := by rw [← v0]; linear_combination v true * hI
    rw [a1, b1]; ring
  | Z =>
    simp only [mapp, pmat, mZ_ff, mZ_ft, mZ_tf, mZ_tt, zero_mul, one_mul, zero_add, add_zero] at u0 u1 v0 v1
    by_cases he : e = 1
    · subst he
      have a : (2 : K) * u true = 0 := by linear_combination (-1 : K) * u1
      have b : (2 : K) * v true = 0 := by linear_combination (-1 : K) * v1
      have a' := (mul_eq_zero.mp a).resolve_left Coef.two_ne_zero'
      have b' := (mul_eq_zero.mp b).resolve_left Coef.two_ne_zero'
      rw [a', b']; ring
    · have h1 : (1 - e) ≠ 0 := fun h => he (by linear_combination (-1 : K) * h)
      have a : (1 - e) * u false = 0 := by linear_combination u0
      have b : (1 - e) * v false = 0 := by linear_combination v0
      rw [(mul_eq_zero.mp a).resolve_left h1, (mul_eq_zero.mp b).resolve_left h1]; ring

theorem addBit_dropBit (q : ℕ) (x : Bool) (b : Cfg) : addBit q x (dropBit q b) = Function.update b q x := by
  funext i
  simp only [addBit, dropBit, Function.update_apply]
  by_cases h1 : i < q
  · rw [if_pos h1, if_pos h1, if_neg (by omega)]
  · by_cases h2 : i = q
    · simp [h2]
    · rw [if_neg h1, if_neg h2, if_neg h2, if_neg (by omega)]
      congr 1; omega

/-- One qubit: the eigenspace is exactly the set of product states. -/
theorem eigenspace_one (x : Q K) (h : Good x) (ψ : Cfg → K) :
    site x.q (pmat x.p) ψ = x.e • ψ ↔ ψ = ins x.q x.v (con x.q x.w ψ) := by
  constructor
  · intro hψ
    funext b
    set u : Bool → K := fun y => ψ (Function.update b x.q y) with hu
    have hue : IsEig x.p x.e u := by
      intro a
      have := congrFun hψ (Function.update b x.q a)
      simp only [site_apply, Function.update_self, Function.update_idem, Pi.smul_apply, smul_eq_mul] at this
      simpa [mapp, hu] using this
    have hd := eig_det x.p h.np x.e u x.v hue h.eig
    have hn := h.norm
    have key : ∀ a, u a = x.v a * (x.w false * u false + x.w true * u true) := by
      intro a
      cases a
      · linear_combination (-u false) * hn + x.w true * hd
      · linear_combination (-u true) * hn - x.w false * hd
    have hb : ψ b = u (b x.q) := by simp [hu]
    rw [hb, key]
    simp only [ins, con, addBit_dropBit, hu]
  · intro hψ
    rw [hψ, site_ins_eq]
    have he : mapp (pmat x.p) x.v = fun a => x.e * x.v a := funext h.eig
    rw [he, ins_smul_left]

theorem ins_injective (x : Q K) (h : Good x) (φ χ : Cfg → K) (he : ins x.q x.v φ = ins x.q x.v χ) : φ = χ := by
  have := congrArg (con x.q x.w) he
  rw [con_ins, con_ins, h.norm, one_smul, one_smul] at this
  exact this

/-- Several qubits: the common eigenspace is exactly the range of `insAll`. -/
theorem sector_iff (l : List (Q K)) (hl : (l.map (·.q)).Pairwise (· > ·)) (hg : ∀ x ∈ l, Good x)
    (ψ : Cfg → K) : InSector l ψ ↔ ∃ φ, ψ = insAll (vs l) φ := by
  induction l generalizing ψ with
  | nil => exact ⟨fun _ => ⟨ψ, rfl⟩, fun _ x hx => by simp at hx⟩
  | cons x l ih =>
    rw [List.map_cons, List.pairwise_cons] at hl
    have hx := hg x (by simp)
    have ih' := ih hl.2 (fun y hy => hg y (by simp [hy]))
    have hlt : ∀ y ∈ l, y.q < x.q := fun y hy => hl.1 y.q (List.mem_map_of_mem hy)
    constructor
    · intro h
      have h1 := (eigenspace_one x hx ψ).mp (h x (by simp))
      set χ := con x.q x.w ψ with hχ
      have h2 : InSector l χ := by
        intro y hy
        have h3 := h y (by simp [hy])
        rw [h1, site_ins_lt _ _ (hlt y hy), ← ins_smul] at h3
        exact ins_injective x hx _ _ h3
      obtain ⟨φ, hφ⟩ := (ih' χ).mp h2
      exact ⟨φ, by rw [h1, hφ]; rfl⟩
    · rintro ⟨φ, rfl⟩ y hy
      have he : mapp (pmat x.p) x.v = fun a => x.e * x.v a := funext hx.eig
      rcases List.mem_cons.mp hy with rfl | hy
      · show site y.q _ (ins y.q y.v _) = y.e • ins y.q y.v _
        rw [site_ins_eq, he, ins_smul_left]
      · show site y.q _ (ins x.q x.v (insAll (vs l) φ)) = y.e • ins x.q x.v (insAll (vs l) φ)
        rw [site_ins_lt _ _ (hlt y hy), (ih' _).mpr ⟨φ, rfl⟩ y hy, ins_smul]

theorem insAll_injective (l : List (Q K)) (hg : ∀ x ∈ l, Good x) (φ χ : Cfg → K)
    (he : insAll (vs l) φ = insAll (vs l) χ) : φ = χ := by
  induction l with
  | nil => exact he
  | cons x l ih => exact ih (fun y hy => hg y (by simp [hy])) (ins_injective x (hg x (by simp)) _ _ he)

/-- For positions in strictly descending order, compatibility is a condition on the original string. -/
theorem compatible_of_forall (l : List (Q K)) (hl : (l.map (·.q)).Pairwise (· > ·)) (s : PStr)
    (h : ∀ x ∈ l, s[x.q]? = some x.p ∨ s[x.q]? = some .I) : Compatible (args l) s := by
  induction l generalizing s with
  | nil => trivial
  | cons x l ih =>
    rw [List.map_cons, List.pairwise_cons] at hl
    refine ⟨h x (by simp), ih hl.2 _ ?_⟩
    intro y hy
    have hlt : y.q < x.q := hl.1 y.q (List.mem_map_of_mem hy)
    rw [List.getElem?_eraseIdx_of_lt hlt]
    exact h y (by simp [hy])

theorem inRange_of_forall (l : List (Q K)) (hl : (l.map (·.q)).Pairwise (· > ·)) (n : ℕ)
    (h : ∀ x ∈ l, x.q < n) : InRange (args l) n := by
  induction l generalizing n with
  | nil => trivial
  | cons x l ih =>
    rw [List.map_cons, List.pairwise_cons] at hl
    refine ⟨h x (by simp), ih hl.2 _ ?_⟩
    intro y hy
    have hlt : y.q < x.q := hl.1 y.q (List.mem_map_of_mem hy)
    have := h x (by simp)
    omega

theorem descending_of_strict (l : List (Q K)) (hl : (l.map (·.q)).Pairwise (· > ·)) :
    descending (args l) = true := by
  unfold descending
  rw [decide_eq_true_eq]
  have : (args l).map (·.1) = l.map (·.q) := by simp [args]
  rw [this]
  exact hl.imp (fun h => le_of_lt h)

/-! ### The basis change -/

theorem site_denP_letter (p : PL) (q k : ℕ) (s : PStr) (a : PL) (h : s[q]? = some a) (ε : K)
    (hε : (pmat p * pmat a : M2 K) = ε • (pmat a * pmat p)) :
    site (k + q) (pmat p) * denP k s = (ε • (denP k s * site (k + q) (pmat p)) : Oper K) := by
  induction s generalizing k q with
  | nil => simp at h
  | cons b s ih =>
    cases q with
    | zero =>
      simp only [List.getElem?_cons_zero, Option.some.injEq] at h
      subst h
      simp only [denP, add_zero]
      rw [← mul_assoc, ← site_mul, hε, site_smul, site_mul, smul_mul_assoc, mul_assoc, mul_assoc,
        ← denP_site_lt (Nat.lt_succ_self k)]
    | succ q =>
      simp only [List.getElem?_cons_succ] at h
      have e : k + (q + 1) = (k + 1) + q := by omega
      simp only [denP, e]
      rw [← mul_assoc, site_comm (by omega), mul_assoc, ih q (k+1) h, mul_smul_comm, mul_assoc]

theorem denP_pad' (k n : ℕ) (t : PStr) : (denP k (List.replicate n .I ++ t) : Oper K) = denP (k + n) t := by
  induction n generalizing k with
  | zero => rfl
  | succ n ih =>
    rw [List.replicate_succ, List.cons_append, denP, ih]
    simp only [pmat, site_one, one_mul]
    congr 1; omega

theorem xString_eq (n q : ℕ) (h : q < n) :
    xString n q = List.replicate q .I ++ .X :: List.replicate (n - q - 1) .I := by
  unfold xString
  rw [List.take_replicate, List.drop_replicate, Nat.min_eq_left (by omega), Nat.sub_add_eq]

theorem xString_length (n q : ℕ) (h : q < n) : (xString n q).length = n := by
  rw [xString_eq n q h]; simp; omega

theorem xString_get (n q : ℕ) (h : q < n) : (xString n q)[q]? = some .X := by
  rw [xString_eq n q h, List.getElem?_append_right (by simp)]
  simp

theorem denP_xString (n q : ℕ) (h : q < n) : (denP 0 (xString n q) : Oper K) = site q (pmat .X) := by
  rw [xString_eq n q h, denP_pad', zero_add, denP]
  have := denP_pad' (K := K) (q+1) (n - q - 1) []
  rw [List.append_nil] at this
  rw [this]
  simp [denP]

theorem symU_eq (r : K) (tau : PStr) (q : ℕ) :
    symU r tau q = if tau = xString tau.length q then [(tau, r)] else [(tau, r), (xString tau.length q, r)] := by
  unfold symU OpD.ofList
  by_cases h : tau = xString tau.length q
  · rw [if_pos h, ← h]; simp [OpD.hasKey]
  · rw [if_neg h]; simp [OpD.hasKey, h]

theorem symU_ne (tau : PStr) (q : ℕ) (a : PL) (h : tau[q]? = some a) (ha : a ≠ .X) :
    tau ≠ xString tau.length q := by
  intro he
  have hq : q < tau.length := (List.getElem?_eq_some_iff.mp h).1
  rw [he, xString_get _ _ hq] at h
  exact ha (by simpa using h.symm)

theorem symU_den_of_ne (r : K) (tau : PStr) (q : ℕ) (hq : q < tau.length)
    (h : tau ≠ xString tau.length q) :
    denPO (symU r tau q) = (r • (denP 0 tau + site q (pmat .X)) : Oper K) := by
  rw [symU_eq, if_neg h]
  unfold denPO
  rw [OpD.denD_cons, OpD.denD_cons, OpD.denD_nil, add_zero, denP_xString _ _ hq]
  module

theorem unitary_algebra {R : Type} [Ring R] [Algebra K R] (r : K) (hr : 2 * (r * r) = 1) (T X : R)
    (hT : T * T = 1) (hX : X * X = 1) (hTX : X * T = (-1 : K) • (T * X)) :
    (r • (T + X)) * (r • (T + X)) = 1 ∧ (r • (T + X)) * T * (r • (T + X)) = X ∧
      (r • (T + X)) * X * (r • (T + X)) = T := by
  have h2 : ∀ Y : R, (r * r) • (Y + Y) = Y := by
    intro Y
    rw [← two_smul K Y, smul_smul, mul_comm, hr, one_smul]
  have hTX' : X * T = -(T * X) := by rw [hTX, neg_one_smul]
  have e0 : (T + X) * (T + X) = 1 + 1 := by
    calc (T + X) * (T + X) = T * T + X * X + (T * X + X * T) := by noncomm_ring
      _ = 1 + 1 := by rw [hT, hX, hTX']; abel
  have e1 : (T + X) * T * (T + X) = X + X := by
    calc (T + X) * T * (T + X) = T * T * (T + X) + X * (T * T) + (X * T) * X := by noncomm_ring
      _ = X + X := by rw [hT, hTX']; rw [show -(T * X) * X = -(T * (X * X)) by noncomm_ring, hX]; noncomm_ring
  have e2 : (T + X) * X * (T + X) = T + T := by
    calc (T + X) * X * (T + X) = T * (X * T) + T * (X * X) + X * X * (T + X) := by noncomm_ring
      _ = T + T := by rw [hX, hTX', show T * -(T * X) = -((T * T) * X) by noncomm_ring, hT]; noncomm_ring
  refine ⟨?_, ?_, ?_⟩
  · rw [smul_mul_smul_comm, e0, h2]
  · rw [smul_mul_assoc, smul_mul_smul_comm, e1, h2]
  · rw [smul_mul_assoc, smul_mul_smul_comm, e2, h2]

/-- The letter commutation sign with `X`. -/
def sgnX : PL → K
  | .I => 1
  | .X => 1
  | .Y => -1
  | .Z => -1

theorem sgnX_spec (a : PL) : (pmat .X * pmat a : M2 K) = (sgnX a : K) • (pmat a * pmat .X) := by
  cases a
  · rw [sgnX, one_smul]; exact Reduce.letter_comm _ _ (by simp)
  · rw [sgnX, one_smul]
  · rw [sgnX]; exact Reduce.letter_anti _ _ (by simp) (by simp)
  · rw [sgnX]; exact Reduce.letter_anti _ _ (by simp) (by simp)

theorem siteX_sq (q : ℕ) : (site q (pmat .X) * site q (pmat .X) : Oper K) = 1 := by
  rw [← site_mul, Reduce.letter_sq, site_one]

/-- An operator commuting with `X_q` has only `I` and `X` at `q`. -/
theorem letters_of_comm (n q : ℕ) (hq : q < n) (B : POp K) (hl : ∀ t ∈ B, t.1.length = n)
    (hu : UniqueKeys B) (hns : ∀ t ∈ B, t.2 ≠ 0)
    (hc : (site q (pmat .X) * denPO B : Oper K) = denPO B * site q (pmat .X)) :
    ∀ t ∈ B, t.1[q]? = some .X ∨ t.1[q]? = some .I := by
  set F : POp K := B.map (fun t => (t.1, sgnX ((t.1[q]?).getD .I) * t.2)) with hF
  have hden : (denPO F : Oper K) = site q (pmat .X) * denPO B * site q (pmat .X) := by
    rw [hF]
    clear hF hc hu hns
    unfold denPO
    induction B with
    | nil => simp [OpD.denD_nil]
    | cons t B ih =>
      rw [List.map_cons, OpD.denD_cons, OpD.denD_cons, ih (fun t ht => hl t (by simp [ht])), mul_add, add_mul]
      congr 1
      have hlt : q < t.1.length := by rw [hl t (by simp)]; exact hq
      have hg : t.1[q]? = some t.1[q] := List.getElem?_eq_getElem hlt
      have h1 := site_denP_letter (K := K) .X q 0 t.1 t.1[q] hg _ (sgnX_spec _)
      rw [zero_add] at h1
      simp only [hg, Option.getD_some]
      rw [mul_smul_comm, smul_mul_assoc, h1, smul_mul_assoc, mul_assoc, siteX_sq, mul_one, smul_smul, mul_comm]
  have heq : (denPO F : Oper K) = denPO B := by
    rw [hden, hc, mul_assoc, siteX_sq, mul_one]
  have hFl : ∀ t ∈ F, t.1.length = n := by
    intro t ht
    obtain ⟨u, hu, rfl⟩ := List.mem_map.mp ht
    exact hl u hu
  have hFu : UniqueKeys F := by
    unfold UniqueKeys
    have : F.map (·.1) = B.map (·.1) := by simp [hF]
    rw [this]; exact hu
  intro t ht
  have hlt : q < t.1.length := by rw [hl t ht]; exact hq
  have hg : t.1[q]? = some t.1[q] := List.getElem?_eq_getElem hlt
  have hcf := coef_unique n F B hFl hl heq t.1
  have hmF : (t.1, sgnX ((t.1[q]?).getD .I) * t.2) ∈ F := List.mem_map.mpr ⟨t, ht, rfl⟩
  rw [OpD.coef_of_mem B hu t ht, OpD.coef_of_mem F hFu _ hmF] at hcf
  simp only [hg, Option.getD_some] at hcf
  rw [hg]
  have hn0 := hns t ht
  have bad : (-1 : K) * t.2 ≠ t.2 := by
    intro h
    have : (2 : K) * t.2 = 0 := by linear_combination (-1 : K) * h
    exact hn0 ((mul_eq_zero.mp this).resolve_left Coef.two_ne_zero')
  cases hx : t.1[q] with
  | X => left; rfl
  | I => right; rfl
  | Y => rw [hx] at hcf; exact absurd hcf bad
  | Z => rw [hx] at hcf; exact absurd hcf bad

end Taper
end HQCA
