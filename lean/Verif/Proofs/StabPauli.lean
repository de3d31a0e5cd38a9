import Verif.Proofs.StabDec
import Verif.Proofs.Pauli
import Verif.Proofs.Reduce
import Verif.Props.Operators

/-!
# Check vectors and Pauli strings
-/

set_option linter.unusedSectionVars false

namespace HQCA
namespace Stab
variable {K : Type} [Coef K]

/-- The check vector of a string of `N` letters. -/
def chk (N : ℕ) (p : PStr) : Vec := fun i =>
  if i < N then bit ((p.getD i .I).r) else if i < 2 * N then bit ((p.getD (i % N) .I).l) else 0

theorem pauliToCheck_eq {N : ℕ} {p : PStr} (h : p.length = N) : pauliToCheck N p = some (chk N p) := by
  unfold pauliToCheck
  rw [if_neg (by omega)]
  rfl

theorem chk_low {N : ℕ} (p : PStr) {i : ℕ} (h : i < N) : chk N p i = bit ((p.getD i .I).r) := by
  simp [chk, h]

theorem chk_high {N : ℕ} (p : PStr) {i : ℕ} (h : i < N) : chk N p (i + N) = bit ((p.getD i .I).l) := by
  unfold chk
  rw [if_neg (by omega), if_pos (by omega), Nat.add_mod_right, Nat.mod_eq_of_lt h]

theorem chk_supp (N : ℕ) (p : PStr) {i : ℕ} (h : 2 * N ≤ i) : chk N p i = 0 := by
  unfold chk
  rw [if_neg (by omega), if_neg (by omega)]

theorem bit_one (b : Bool) : bit b = 1 ↔ b = true := by cases b <;> simp [bit]

theorem checkToPauli_chk {N : ℕ} {p : PStr} (h : p.length = N) : checkToPauli N (chk N p) = p := by
  apply List.ext_getElem
  · simp [checkToPauli, h]
  · intro i h1 h2
    have hi : i < N := by omega
    simp only [checkToPauli, List.getElem_map, List.getElem_range, chk_low p hi, chk_high p hi, bit_one]
    simp only [List.getD, h2, List.getElem?_eq_getElem, Option.getD_some]
    cases p[i] <;> rfl

theorem vec_ext {N : ℕ} {u v : Vec} (hu : ∀ i, 2 * N ≤ i → u i = 0) (hv : ∀ i, 2 * N ≤ i → v i = 0)
    (h1 : ∀ i < N, u i = v i) (h2 : ∀ i < N, u (i + N) = v (i + N)) : u = v := by
  funext i
  by_cases h : i < N
  · exact h1 i h
  · by_cases h' : i < 2 * N
    · have := h2 (i - N) (by omega)
      rwa [Nat.sub_add_cancel (by omega)] at this
    · rw [hu i (by omega), hv i (by omega)]

theorem checkToPauli_getD {N : ℕ} (v : Vec) {i : ℕ} (h : i < N) :
    (checkToPauli N v).getD i .I = if v i = 1 then (if v (i + N) = 1 then .Y else .Z)
      else (if v (i + N) = 1 then .X else .I) := by
  simp [checkToPauli, List.getD, h]

theorem chk_checkToPauli {N : ℕ} {v : Vec} (hv : ∀ i, 2 * N ≤ i → v i = 0) :
    chk N (checkToPauli N v) = v := by
  refine vec_ext (N := N) (fun i hi => chk_supp _ _ hi) hv ?_ ?_
  · intro i hi
    rw [chk_low _ hi, checkToPauli_getD v hi]
    rcases zcases (v i) with h | h <;> rcases zcases (v (i + N)) with h' | h' <;>
      simp [h, h', PL.r, bit]
  · intro i hi
    rw [chk_high _ hi, checkToPauli_getD v hi]
    rcases zcases (v i) with h | h <;> rcases zcases (v (i + N)) with h' | h' <;>
      simp [h, h', PL.l, bit]

theorem checkToPauli_length (N : ℕ) (v : Vec) : (checkToPauli N v).length = N := by
  simp [checkToPauli]

theorem nullStr_eq (N : ℕ) (v : Vec) : nullStr N v = checkToPauli N v := by
  unfold nullStr checkToPauli
  refine List.map_congr_left fun i _ => ?_
  rcases zcases (v i) with h | h <;> rcases zcases (v (i + N)) with h' | h' <;> simp [h, h']

theorem chk_inj {N : ℕ} {p q : PStr} (hp : p.length = N) (hq : q.length = N) (h : chk N p = chk N q) :
    p = q := by
  rw [← checkToPauli_chk hp, ← checkToPauli_chk hq, h]

theorem chk_iden (N : ℕ) : chk N (List.replicate N PL.I) = 0 := by
  refine vec_ext (N := N) (fun i hi => chk_supp _ _ hi) (fun _ _ => rfl) ?_ ?_
  · intro i hi; rw [chk_low _ hi]; simp [List.getD, List.getElem?_replicate, hi, PL.r, bit]
  · intro i hi; rw [chk_high _ hi]; simp [List.getD, List.getElem?_replicate, hi, PL.l, bit]

/-- The symplectic product of two check vectors. -/
def symp (N : ℕ) (u v : Vec) : ZMod 2 :=
  ∑ i ∈ Finset.range N, (u i * v (i + N) + u (i + N) * v i)

/-- Anticommutation of two letters as a bit. -/
def antiB (a b : PL) : ZMod 2 := bit a.r * bit b.l + bit a.l * bit b.r

theorem anticount_cast (s t : PStr) (n : ℕ) (hl : s.length = t.length)
    (h : Reduce.anticount s t = some n) :
    (n : ZMod 2) = ∑ i ∈ Finset.range s.length, antiB (s.getD i .I) (t.getD i .I) := by
  induction s generalizing t n with
  | nil => simp [Reduce.anticount] at h; subst h; simp
  | cons a s ih =>
    cases t with
    | nil => simp at hl
    | cons b t =>
      rw [List.length_cons, Finset.sum_range_succ']
      simp only [List.getD_cons_succ, List.getD_cons_zero]
      have hl' : s.length = t.length := by simpa using hl
      obtain ⟨m, hm⟩ := Reduce.anticount_isSome s t hl'
      have := ih t m hl' hm
      rw [← this]
      simp only [Reduce.anticount, hm, Option.map_some] at h
      cases a <;> cases b <;> simp at h <;> subst h <;>
        simp [antiB, PL.l, PL.r, bit] <;> decide

theorem symp_chk {N : ℕ} (s t : PStr) :
    symp N (chk N s) (chk N t) = ∑ i ∈ Finset.range N, antiB (s.getD i .I) (t.getD i .I) := by
  refine Finset.sum_congr rfl fun i hi => ?_
  have := Finset.mem_range.mp hi
  rw [chk_low _ this, chk_high _ this, chk_low _ this, chk_high _ this]
  rfl

theorem comm_iff_symp {N : ℕ} {s t : PStr} (hs : s.length = N) (ht : t.length = N) :
    (denP 0 s * denP 0 t : Oper K) = denP 0 t * denP 0 s ↔ symp N (chk N s) (chk N t) = 0 := by
  obtain ⟨n, hn⟩ := Reduce.anticount_isSome s t (hs.trans ht.symm)
  rw [Reduce.denP_comm_iff s t n hn (hs.trans ht.symm), symp_chk, ← hs,
    ← anticount_cast s t n (hs.trans ht.symm) hn, ZMod.natCast_eq_zero_iff]
  omega

theorem symp_dot (N : ℕ) (u v : Vec) :
    symp N u v = dot (2 * N) (fun j => if j < N then u (j + N) else if j < 2 * N then u (j - N) else 0) v := by
  unfold symp dot
  rw [two_mul, Finset.sum_range_add, ← Finset.sum_add_distrib]
  refine Finset.sum_congr rfl fun i hi => ?_
  have := Finset.mem_range.mp hi
  beta_reduce
  rw [if_pos this, if_neg (by omega), if_pos (by omega), Nat.add_sub_cancel_left, Nat.add_comm N i]
  ring

/-! ## Products -/

theorem construct_getD (s t : PStr) (h : s.length = t.length) (i : ℕ) (hi : i < s.length) :
    (Pauli.construct (List.zipWith xor (s.map PL.l) (t.map PL.l))
      (List.zipWith xor (s.map PL.r) (t.map PL.r))).getD i .I =
    PL.ofBits (xor (s.getD i .I).l (t.getD i .I).l) (xor (s.getD i .I).r (t.getD i .I).r) := by
  have ht : i < t.length := by omega
  simp [Pauli.construct, List.getD, hi, ht]

theorem bit_xor (a b : Bool) : bit (xor a b) = bit a + bit b := by
  cases a <;> cases b <;> decide

theorem ofBits_l (a b : Bool) : (PL.ofBits a b).l = a := by cases a <;> cases b <;> rfl
theorem ofBits_r (a b : Bool) : (PL.ofBits a b).r = b := by cases a <;> cases b <;> rfl

theorem mul_chk {N : ℕ} (P Q R : Term PStr K) (hP : P.1.length = N) (hQ : Q.1.length = N)
    (h : Pauli.mul P Q = some R) : R.1.length = N ∧ chk N R.1 = chk N P.1 + chk N Q.1 := by
  have hl : P.1.length = Q.1.length := hP.trans hQ.symm
  simp only [Pauli.mul, if_pos hl, Option.some.injEq] at h
  subst h
  refine ⟨by simp [Pauli.construct, hP, hQ], ?_⟩
  refine vec_ext (N := N) (fun i hi => chk_supp _ _ hi) ?_ ?_ ?_
  · intro i hi
    rw [Pi.add_apply, chk_supp _ _ hi, chk_supp _ _ hi, add_zero]
  · intro i hi
    rw [Pi.add_apply, chk_low _ hi, chk_low _ hi, chk_low _ hi,
      construct_getD _ _ hl i (by omega), ofBits_r, bit_xor]
  · intro i hi
    rw [Pi.add_apply, chk_high _ hi, chk_high _ hi, chk_high _ hi,
      construct_getD _ _ hl i (by omega), ofBits_l, bit_xor]

theorem denP_iden (N k : ℕ) : (denP k (List.replicate N PL.I) : Oper K) = 1 := by
  induction N generalizing k with
  | zero => rfl
  | succ N ih => rw [List.replicate_succ, denP, ih, pmat, site_one, one_mul]

theorem foldlM_product {N : ℕ} (L : List PStr) (hL : ∀ p ∈ L, p.length = N) (A : Term PStr K)
    (hA : A.1.length = N) :
    ∃ R : Term PStr K, L.foldlM (fun acc p => Pauli.mul acc (p, 1)) A = some R ∧ R.1.length = N ∧
      chk N R.1 = chk N A.1 + (L.map (chk N)).sum ∧
      R.2 • (denP 0 R.1 : Oper K) = A.2 • denP 0 A.1 * (L.map (denP 0)).prod := by
  induction L generalizing A with
  | nil => exact ⟨A, rfl, hA, by simp, by simp⟩
  | cons p L ih =>
    have hp := hL p List.mem_cons_self
    obtain ⟨R, hR, h1, h2⟩ := Props.C01_pauli_product (K := K) A (p, 1) (hA.trans hp.symm)
    have h3 := mul_chk A (p, 1) R hA hp hR
    obtain ⟨R', e, e1, e2, e3⟩ := ih (fun q hq => hL q (List.mem_cons_of_mem _ hq)) R (h1.trans hA)
    refine ⟨R', ?_, e1, ?_, ?_⟩
    · rw [List.foldlM_cons, hR]; exact e
    · rw [e2, h3.2, List.map_cons, List.sum_cons, add_assoc]
    · rw [e3, h2, List.map_cons, List.prod_cons, one_smul, mul_assoc]

theorem product_spec {N : ℕ} (L : List PStr) (hL : ∀ p ∈ L, p.length = N) :
    ∃ R : Term PStr K, product N L = some R ∧ R.1.length = N ∧
      chk N R.1 = (L.map (chk N)).sum ∧ R.2 • (denP 0 R.1 : Oper K) = (L.map (denP 0)).prod := by
  obtain ⟨R, h, h1, h2, h3⟩ := foldlM_product (K := K) L hL (List.replicate N PL.I, 1) (by simp)
  refine ⟨R, h, h1, ?_, ?_⟩
  · rw [h2, chk_iden, zero_add]
  · rw [h3, denP_iden, one_smul, one_mul]

/-! ## The constructor -/

/-- Column at which the next string is stored. -/
def start (n : ℕ) (seen : Bool) : ℕ := if seen then n - 1 else n

theorem fill_spec {N : ℕ} (ps : List PStr) (hps : ∀ p ∈ ps, p.length = N) (n : ℕ) (seen : Bool)
    (hn : seen = true → 1 ≤ n) (G : ℕ → Vec) :
    ∃ G' s', fill N ps n seen G = some (G', s') ∧
      start n seen ≤ start (n + ps.length) s' ∧
      (s' = true → 1 ≤ n + ps.length) ∧
      (∀ r < start n seen, G' r = G r) ∧
      (∀ p ∈ ps, p ≠ List.replicate N PL.I → ∃ r < start (n + ps.length) s', G' r = chk N p) ∧
      (∀ r, G' r = G r ∨ ∃ p ∈ ps, G' r = chk N p) := by
  induction ps generalizing n seen G with
  | nil => exact ⟨G, seen, rfl, le_rfl, hn, fun _ _ => rfl, by simp, fun _ => Or.inl rfl⟩
  | cons p ps ih =>
    have hp := hps p List.mem_cons_self
    have hps' : ∀ q ∈ ps, q.length = N := fun q hq => hps q (List.mem_cons_of_mem _ hq)
    have hlen : n + (p :: ps).length = n + 1 + ps.length := by simp; omega
    by_cases hi : p = List.replicate N PL.I
    · obtain ⟨G', s', e, h1, h2, h3, h4, h5⟩ := ih hps' (n + 1) true (by intro _; omega) G
      have hst : start n seen ≤ start (n + 1) true := by
        unfold start; split_ifs <;> first | omega | simp_all
      refine ⟨G', s', ?_, ?_, ?_, ?_, ?_, ?_⟩
      · rw [fill, if_pos hi]; exact e
      · rw [hlen]; exact hst.trans h1
      · rw [hlen]; exact h2
      · intro r hr; exact h3 r (lt_of_lt_of_le hr hst)
      · intro q hq hq'
        rw [hlen]
        rcases List.mem_cons.mp hq with e' | e'
        · exact absurd (e' ▸ hi) hq'
        · exact h4 q e' hq'
      · intro r
        rcases h5 r with e' | ⟨q, hq, e'⟩
        · exact Or.inl e'
        · exact Or.inr ⟨q, List.mem_cons_of_mem _ hq, e'⟩
    · have hst : start n seen + 1 = start (n + 1) seen := by
        unfold start
        cases seen with
        | true => have := hn rfl; simp; omega
        | false => simp
      obtain ⟨G', s', e, h1, h2, h3, h4, h5⟩ := ih hps' (n + 1) seen (by intro _; omega)
        (Function.update G (start n seen) (chk N p))
      refine ⟨G', s', ?_, ?_, ?_, ?_, ?_, ?_⟩
      · rw [fill, if_neg hi, pauliToCheck_eq hp]; exact e
      · rw [hlen]; omega
      · rw [hlen]; exact h2
      · intro r hr
        rw [h3 r (by omega), Function.update_of_ne (Nat.ne_of_lt hr)]
      · intro q hq hq'
        rw [hlen]
        rcases List.mem_cons.mp hq with e' | e'
        · subst e'
          exact ⟨start n seen, by omega, by rw [h3 _ (by omega), Function.update_self]⟩
        · exact h4 q e' hq'
      · intro r
        rcases h5 r with e' | ⟨q, hq, e'⟩
        · by_cases hr : r = start n seen
          · subst hr
            rw [Function.update_self] at e'
            exact Or.inr ⟨p, List.mem_cons_self, e'⟩
          · rw [Function.update_of_ne hr] at e'
            exact Or.inl e'
        · exact Or.inr ⟨q, List.mem_cons_of_mem _ hq, e'⟩

/-- The columns of the object built from strings of equal length are their check vectors (the identity
excepted), plus possibly zero columns. -/
theorem init_spec (ps : List PStr) (hne : ps ≠ []) (N : ℕ) (hps : ∀ p ∈ ps, p.length = N) :
    ∃ s, init ps = some s ∧ s.N = N ∧
      (∀ p ∈ ps, p ≠ List.replicate N PL.I → ∃ r < s.l, s.G r = chk N p) ∧
      (∀ r, s.G r = 0 ∨ ∃ p ∈ ps, s.G r = chk N p) := by
  cases ps with
  | nil => exact absurd rfl hne
  | cons p ps =>
    have hp := hps p List.mem_cons_self
    obtain ⟨G', s', e, _, _, _, h4, h5⟩ := fill_spec (p :: ps) hps 0 false (by simp) (fun _ _ => 0)
    refine ⟨⟨N, start (p :: ps).length s', G'⟩, ?_, rfl, ?_, ?_⟩
    · simp only [init, hp, e]
      rfl
    · intro q hq hq'
      have := h4 q hq hq'
      simpa using this
    · exact fun r => h5 r

end Stab
end HQCA
