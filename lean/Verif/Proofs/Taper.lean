import Verif.Model.Taper
import Verif.Spec.Insert
import Verif.Proofs.Operator
import Verif.Proofs.Independent
import Verif.Proofs.Reduce

/-!
# Lemmas on tapering
-/

set_option linter.unusedSectionVars false

namespace HQCA
variable {K : Type} [Coef K]

theorem dropBit_update_eq (q : ℕ) (b : Cfg) (x : Bool) : dropBit q (Function.update b q x) = dropBit q b := by
  funext i
  unfold dropBit
  by_cases h : i < q
  · rw [if_pos h, if_pos h, Function.update_of_ne (by omega)]
  · rw [if_neg h, if_neg h, Function.update_of_ne (by omega)]

theorem dropBit_update_lt (q k : ℕ) (h : k < q) (b : Cfg) (x : Bool) :
    dropBit q (Function.update b k x) = Function.update (dropBit q b) k x := by
  funext i
  simp only [dropBit, Function.update_apply]
  split_ifs <;> first | rfl | omega

theorem dropBit_update_gt (q k : ℕ) (h : q ≤ k) (b : Cfg) (x : Bool) :
    dropBit q (Function.update b (k+1) x) = Function.update (dropBit q b) k x := by
  funext i
  simp only [dropBit, Function.update_apply]
  split_ifs <;> first | rfl | omega

theorem site_ins_eq (q : ℕ) (m : M2 K) (v : Bool → K) (φ : Cfg → K) :
    site q m (ins q v φ) = ins q (mapp m v) φ := by
  funext b
  simp only [site_apply, ins, mapp, Function.update_self, dropBit_update_eq]
  ring

theorem site_ins_lt (q k : ℕ) (h : k < q) (m : M2 K) (v : Bool → K) (φ : Cfg → K) :
    site k m (ins q v φ) = ins q v (site k m φ) := by
  funext b
  have hb : dropBit q b k = b k := by simp [dropBit, h]
  simp only [site_apply, ins, dropBit_update_lt q k h, hb, Function.update_of_ne (by omega : q ≠ k)]
  ring

theorem site_ins_gt (q k : ℕ) (h : q ≤ k) (m : M2 K) (v : Bool → K) (φ : Cfg → K) :
    site (k+1) m (ins q v φ) = ins q v (site k m φ) := by
  funext b
  have hb : dropBit q b k = b (k+1) := by simp [dropBit, h]
  simp only [site_apply, ins, dropBit_update_gt q k h, hb, Function.update_of_ne (by omega : q ≠ k + 1)]
  ring

theorem denP_ins_gt (q k : ℕ) (h : q ≤ k) (s : PStr) (v : Bool → K) (φ : Cfg → K) :
    denP (k+1) s (ins q v φ) = ins q v (denP k s φ) := by
  induction s generalizing k with
  | nil => rfl
  | cons p s ih =>
    simp only [denP, Module.End.mul_apply]
    rw [ih (k+1) (by omega), site_ins_gt q k h]

/-- A string on a product state: the letter at the inserted qubit acts on `v`, the rest on `φ`. -/
theorem denP_ins (q k : ℕ) (s : PStr) (r : PL) (h : s[q]? = some r) (v : Bool → K) (φ : Cfg → K) :
    denP k s (ins (k + q) v φ) = ins (k + q) (mapp (pmat r) v) (denP k (s.eraseIdx q) φ) := by
  induction s generalizing k q with
  | nil => simp at h
  | cons p s ih =>
    cases q with
    | zero =>
      simp only [List.getElem?_cons_zero, Option.some.injEq] at h
      subst h
      simp only [denP, Module.End.mul_apply, List.eraseIdx_zero, List.tail_cons, add_zero]
      rw [denP_ins_gt k k le_rfl, site_ins_eq]
    | succ q =>
      simp only [List.getElem?_cons_succ] at h
      simp only [denP, Module.End.mul_apply, List.eraseIdx_cons_succ]
      have : k + (q + 1) = (k + 1) + q := by omega
      rw [this, ih q (k+1) h, site_ins_lt _ _ (by omega)]

theorem con_ins (q : ℕ) (w v : Bool → K) (φ : Cfg → K) :
    con q w (ins q v φ) = (w false * v false + w true * v true) • φ := by
  funext b
  have h1 : ∀ x, addBit q x b q = x := by intro x; simp [addBit]
  have h2 : ∀ x, dropBit q (addBit q x b) = b := by
    intro x; funext i
    unfold dropBit addBit
    by_cases h : i < q
    · simp [h]
    · simp only [if_neg h, if_neg (by omega : ¬ i + 1 < q), if_neg (by omega : ¬ i + 1 = q)]; simp
  simp only [con, ins, h1, h2, Pi.smul_apply, smul_eq_mul]
  ring

theorem ins_smul (q : ℕ) (v : Bool → K) (c : K) (φ : Cfg → K) : ins q v (c • φ) = c • ins q v φ := by
  funext b; simp [ins]; ring

theorem ins_smul_left (q : ℕ) (v : Bool → K) (c : K) (φ : Cfg → K) :
    ins q (fun a => c * v a) φ = c • ins q v φ := by
  funext b; simp [ins]; ring

theorem ins_add (q : ℕ) (v : Bool → K) (φ χ : Cfg → K) : ins q v (φ + χ) = ins q v φ + ins q v χ := by
  funext b; simp [ins]; ring

theorem ins_zero (q : ℕ) (v : Bool → K) : ins q v (0 : Cfg → K) = 0 := by
  funext b; simp [ins]

theorem con_smul (q : ℕ) (w : Bool → K) (c : K) (φ : Cfg → K) : con q w (c • φ) = c • con q w φ := by
  funext b; simp [con]; ring

theorem con_add (q : ℕ) (w : Bool → K) (φ χ : Cfg → K) : con q w (φ + χ) = con q w φ + con q w χ := by
  funext b; simp [con]; ring

theorem insAll_smul (l : List (ℕ × (Bool → K))) (c : K) (φ : Cfg → K) :
    insAll l (c • φ) = c • insAll l φ := by
  induction l with
  | nil => rfl
  | cons a l ih => simp only [insAll, ih, ins_smul]

theorem insAll_add (l : List (ℕ × (Bool → K))) (φ χ : Cfg → K) :
    insAll l (φ + χ) = insAll l φ + insAll l χ := by
  induction l with
  | nil => rfl
  | cons a l ih => simp only [insAll, ih, ins_add]

theorem insAll_zero (l : List (ℕ × (Bool → K))) : insAll l (0 : Cfg → K) = 0 := by
  induction l with
  | nil => rfl
  | cons a l ih => simp only [insAll, ih, ins_zero]

theorem conAll_smul (l : List (ℕ × (Bool → K))) (c : K) (φ : Cfg → K) :
    conAll l (c • φ) = c • conAll l φ := by
  induction l generalizing φ with
  | nil => rfl
  | cons a l ih => simp only [conAll, con_smul, ih]

theorem conAll_add (l : List (ℕ × (Bool → K))) (φ χ : Cfg → K) :
    conAll l (φ + χ) = conAll l φ + conAll l χ := by
  induction l generalizing φ χ with
  | nil => rfl
  | cons a l ih => simp only [conAll, con_add, ih]

theorem conAll_zero (l : List (ℕ × (Bool → K))) : conAll l (0 : Cfg → K) = 0 := by
  have := conAll_smul l (0 : K) 0
  simpa using this

namespace Taper

/-- Every letter met at a tapered qubit is `I` or the chosen one. -/
def Compatible : List (ℕ × PL × K) → PStr → Prop
  | [], _ => True
  | (q, p, _) :: l, s => (s[q]? = some p ∨ s[q]? = some .I) ∧ Compatible l (s.eraseIdx q)

theorem mapp_one (v : Bool → K) : mapp (pmat .I) v = v := by
  funext a; cases a <;> simp [mapp, pmat]

/-- One compatible string. -/
theorem trimStr_spec (null : K) (l : List (Q K)) (hv : ∀ x ∈ l, IsEig x.p x.e x.v) (t : Term PStr K)
    (hc : Compatible (args l) t.1) :
    ∃ u, trimStr null (args l) t = some u ∧ u.1.length + l.length = t.1.length ∧
      ∀ φ, (t.2 • denP 0 t.1 : Oper K) (insAll (vs l) φ) = insAll (vs l) ((u.2 • denP 0 u.1 : Oper K) φ) := by
  induction l generalizing t with
  | nil => exact ⟨t, rfl, rfl, fun φ => rfl⟩
  | cons x l ih =>
    simp only [args, List.map_cons, Compatible] at hc
    obtain ⟨h1, h2⟩ := hc
    have hq : x.q < t.1.length := by
      rcases h1 with h | h <;> exact (List.getElem?_eq_some_iff.mp h).1
    set c' : K := if t.1[x.q] = x.p then t.2 * x.e else if t.1[x.q] = .I then t.2 else t.2 * null with hc'
    obtain ⟨u, g1, g2, g3⟩ := ih (fun y hy => hv y (by simp [hy])) (t.1.eraseIdx x.q, c') h2
    have hget : t.1[x.q]? = some t.1[x.q] := List.getElem?_eq_getElem hq
    refine ⟨u, ?_, ?_, ?_⟩
    · simp only [args, List.map_cons, trimStr, hget]
      exact g1
    · simp only [List.length_cons]
      rw [List.length_eraseIdx_of_lt hq] at g2
      omega
    · intro φ
      simp only [vs, List.map_cons, insAll]
      have h3 := denP_ins x.q 0 t.1 t.1[x.q] hget x.v (insAll (vs l) φ)
      simp only [zero_add] at h3
      have key : (t.2 • denP 0 t.1 : Oper K) (ins x.q x.v (insAll (vs l) φ)) =
          ins x.q x.v ((c' • denP 0 (t.1.eraseIdx x.q) : Oper K) (insAll (vs l) φ)) := by
        simp only [LinearMap.smul_apply]
        rw [h3, ins_smul]
        rw [hget] at h1
        by_cases hp : t.1[x.q] = x.p
        · have he : mapp (pmat x.p) x.v = fun a => x.e * x.v a := funext (hv x (by simp))
          rw [hp, he, ins_smul_left, hc', if_pos hp, smul_smul]
        · have hI : t.1[x.q] = .I := by
            rcases h1 with h | h
            · exact absurd (by simpa using h) hp
            · simpa using h
          rw [hI, mapp_one, hc', if_neg hp, if_pos hI]
      have hvs : (l.map fun x => (x.q, x.v)) = vs l := rfl
      rw [hvs, key, g3]

/-- A letter that anticommutes with `p` has no expectation in an eigenstate. -/
theorem letter_expect (x : Q K) (h : Good x) (r : PL) (hr : r ≠ x.p) (hI : r ≠ .I) :
    x.w false * mapp (pmat r) x.v false + x.w true * mapp (pmat r) x.v true = 0 := by
  have hant : (pmat x.p * pmat r : M2 K) = -(pmat r * pmat x.p) := by
    rw [← neg_one_smul K (pmat r * pmat x.p)]
    apply Reduce.letter_anti
    · rintro (h1 | h1)
      · exact h.np h1
      · exact hI h1
    · exact fun h1 => hr h1.symm
  -- w (p r) v = e (w r v);  w (r p) v = e (w r v)
  set E := x.w false * mapp (pmat r) x.v false + x.w true * mapp (pmat r) x.v true with hE
  have e1 : x.w false * mapp (pmat x.p * pmat r) x.v false + x.w true * mapp (pmat x.p * pmat r) x.v true
      = x.e * E := by
    have d0 := h.dual false
    have d1 := h.dual true
    simp only [mapp, Matrix.mul_apply, Fintype.sum_bool, hE]
    linear_combination (pmat r false false * x.v false + pmat r false true * x.v true) * d0
      + (pmat r true false * x.v false + pmat r true true * x.v true) * d1
  have e2 : x.w false * mapp (pmat r * pmat x.p) x.v false + x.w true * mapp (pmat r * pmat x.p) x.v true
      = x.e * E := by
    have d0 := h.eig false
    have d1 := h.eig true
    simp only [mapp] at d0 d1
    simp only [mapp, Matrix.mul_apply, Fintype.sum_bool, hE]
    linear_combination (x.w false * pmat r false false + x.w true * pmat r true false) * d0
      + (x.w false * pmat r false true + x.w true * pmat r true true) * d1
  rw [hant] at e1
  have e3 : x.w false * mapp (-(pmat r * pmat x.p)) x.v false + x.w true * mapp (-(pmat r * pmat x.p)) x.v true
      = -(x.e * E) := by
    rw [← e2]
    simp only [mapp, Matrix.neg_apply]; ring
  rw [e3] at e1
  have h2 : (2 : K) * (x.e * E) = 0 := by linear_combination (-1 : K) * e1
  rcases mul_eq_zero.mp h2 with h3 | h3
  · exact absurd h3 Coef.two_ne_zero'
  · rcases mul_eq_zero.mp h3 with h4 | h4
    · exact absurd h4 h.ne
    · exact h4

/-- Positions stay inside the string while letters are removed. -/
def InRange : List (ℕ × PL × K) → ℕ → Prop
  | [], _ => True
  | (q, _, _) :: l, n => q < n ∧ InRange l (n - 1)

/-- Any string, with `null = 0`: the trimmed string is the compression to the eigenspace. -/
theorem trimStr_compress (l : List (Q K)) (hg : ∀ x ∈ l, Good x) (t : Term PStr K)
    (hr : InRange (args l) t.1.length) :
    ∃ u, trimStr 0 (args l) t = some u ∧ u.1.length + l.length = t.1.length ∧
      ∀ φ, conAll (ws l) ((t.2 • denP 0 t.1 : Oper K) (insAll (vs l) φ)) = (u.2 • denP 0 u.1 : Oper K) φ := by
  induction l generalizing t with
  | nil => exact ⟨t, rfl, rfl, fun φ => rfl⟩
  | cons x l ih =>
    simp only [args, List.map_cons, InRange] at hr
    obtain ⟨hq, h2⟩ := hr
    set c' : K := if t.1[x.q] = x.p then t.2 * x.e else if t.1[x.q] = .I then t.2 else t.2 * 0 with hc'
    have hlen : (t.1.eraseIdx x.q).length = t.1.length - 1 := List.length_eraseIdx_of_lt hq
    obtain ⟨u, g1, g2, g3⟩ := ih (fun y hy => hg y (by simp [hy])) (t.1.eraseIdx x.q, c') (by
      simp only [hlen]; exact h2)
    have hget : t.1[x.q]? = some t.1[x.q] := List.getElem?_eq_getElem hq
    refine ⟨u, ?_, ?_, ?_⟩
    · simp only [args, List.map_cons, trimStr, hget]
      exact g1
    · simp only [List.length_cons]
      rw [hlen] at g2
      omega
    · intro φ
      simp only [vs, ws, List.map_cons, insAll, conAll]
      have h3 := denP_ins x.q 0 t.1 t.1[x.q] hget x.v (insAll (vs l) φ)
      simp only [zero_add] at h3
      have hvs : (l.map fun x => (x.q, x.v)) = vs l := rfl
      have hws : (l.map fun x => (x.q, x.w)) = ws l := rfl
      rw [hvs, hws, ← g3]
      congr 1
      simp only [LinearMap.smul_apply]
      rw [h3, con_smul, con_ins, smul_smul]
      have hx := hg x (by simp)
      congr 1
      rw [hc']
      by_cases hp : t.1[x.q] = x.p
      · rw [if_pos hp, hp, hx.eig false, hx.eig true]
        linear_combination (t.2 * x.e) * hx.norm
      · rw [if_neg hp]
        by_cases hI : t.1[x.q] = .I
        · rw [if_pos hI, hI, mapp_one, hx.norm, mul_one]
        · rw [if_neg hI, letter_expect x hx _ hp hI]

/-- Trimming distributes over the strings of an operator. -/
theorem trim_den (null : K) (l : List (ℕ × PL × K)) (hd : descending l = true) (A : POp K)
    (F G : (Cfg → K) → (Cfg → K)) (hG0 : G 0 = 0) (hGa : ∀ a b, G (a + b) = G a + G b)
    (n : ℕ) (R : (Cfg → K) → (Cfg → K) → Prop) (hR0 : R 0 0)
    (hRa : ∀ a b c d, R a b → R c d → R (a + c) (b + d))
    (h : ∀ t ∈ A, ∃ u, trimStr null l t = some u ∧ u.1.length = n ∧
      ∀ φ, R ((t.2 • denP 0 t.1 : Oper K) (F φ)) ((u.2 • denP 0 u.1 : Oper K) φ)) :
    ∃ B, trim null l A = some B ∧ UniqueKeys B ∧ (∀ u ∈ B, u.1.length = n) ∧
      ∀ φ, R (denPO A (F φ)) (denPO B φ) := by
  have key : ∃ us, A.mapM (trimStr null l) = some us ∧ (∀ u ∈ us, u.1.length = n) ∧
      ∀ φ, R (denPO A (F φ)) (denPO us φ) := by
    induction A with
    | nil => exact ⟨[], by simp, by simp, fun φ => by simpa [denPO, OpD.denD_nil] using hR0⟩
    | cons t A ih =>
      obtain ⟨us, h1, h2, h3⟩ := ih (fun t' ht' => h t' (by simp [ht']))
      obtain ⟨u, g1, g2, g3⟩ := h t (by simp)
      refine ⟨u :: us, by rw [List.mapM_cons, g1, h1]; rfl, ?_, ?_⟩
      · intro u' hu'
        simp only [List.mem_cons] at hu'
        rcases hu' with rfl | hu'
        · exact g2
        · exact h2 u' hu'
      · intro φ
        have := hRa _ _ _ _ (g3 φ) (h3 φ)
        unfold denPO at this ⊢
        rw [OpD.denD_cons, OpD.denD_cons]
        exact this
  obtain ⟨us, h1, h2, h3⟩ := key
  refine ⟨us.foldl OpD.addStr [], ?_, OpD.foldl_addStr_unique us [] OpD.uniqueKeys_nil, ?_, ?_⟩
  · unfold trim; rw [if_pos hd, h1]; rfl
  · intro u hu
    have hk : u.1 ∈ (us.foldl OpD.addStr []).map (·.1) := List.mem_map_of_mem hu
    rw [OpD.mem_keys_foldl_addStr] at hk
    rcases hk with h' | h'
    · simp at h'
    · obtain ⟨u', hu', he⟩ := List.mem_map.mp h'
      rw [← he]; exact h2 u' hu'
  · intro φ
    have e : (denPO (us.foldl OpD.addStr []) : Oper K) = denPO us := by
      unfold denPO
      rw [OpD.denD_foldl_addStr _ us [] OpD.uniqueKeys_nil, OpD.denD_nil, zero_add]
    rw [e]; exact h3 φ

end Taper
end HQCA
