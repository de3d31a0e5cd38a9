import Verif.Model.RDMAdd
import Verif.Props.RDMAlg
import Mathlib.Tactic.Ring

/-!
# C166: sums, differences and multiples of RDMs
-/

namespace HQCA
namespace Props
open RDM
variable {K : Type} [Coef K]

/-- The two forms of the array of an RDM: tensor or matrix, with all entries (specification). -/
def RdmForm (o : Obj K) : Prop :=
  (o.arr.shape = List.replicate (2 * o.p) o.r ∨ (o.p ≠ 1 ∧ o.arr.shape = [o.r ^ o.p, o.r ^ o.p])) ∧ o.arr.data.length = o.r ^ (2 * o.p)

/-- `v` is the element of the RDM with creation indices `c` and annihilation indices `d`, read from the tensor or from the matrix with compound rows and columns (specification). -/
def RdmEntry (o : Obj K) (c d : List ℕ) (v : K) : Prop :=
  (o.arr.shape = List.replicate (2 * o.p) o.r ∧ o.arr.get (c ++ d) = some v) ∨
    (o.arr.shape = [o.r ^ o.p, o.r ^ o.p] ∧ o.arr.get [compound o.r c, compound o.r d] = some v)

/-- Index lists of an element of the RDM (specification). -/
def RdmIndex (o : Obj K) (c d : List ℕ) : Prop := c.length = o.p ∧ d.length = o.p ∧ (∀ x ∈ c, x < o.r) ∧ ∀ x ∈ d, x < o.r

theorem get_tensor (p r : ℕ) (data : List K) (c d : List ℕ) (hc : c.length = p) (hd : d.length = p) (hcr : ∀ x ∈ c, x < r) (hdr : ∀ x ∈ d, x < r) :
    (⟨List.replicate (2 * p) r, data⟩ : Arr K).get (c ++ d) = data[compound r (c ++ d)]? := by
  unfold Arr.get
  have hl : (c ++ d).length = 2 * p := by rw [List.length_append]; omega
  have hz : ∀ x ∈ (c ++ d).zip (List.replicate (2 * p) r), x.1 < x.2 := by
    intro x hx
    have hl := List.of_mem_zip hx
    rw [(List.mem_replicate.mp hl.2).2]
    rcases List.mem_append.mp hl.1 with h | h
    · exact hcr _ h
    · exact hdr _ h
  rw [if_pos ⟨by simp [hc, hd]; omega, hz⟩]
  dsimp only
  rw [← hl, ravel_compound]

/-- An array in either form has the entry at the row-major position. -/
theorem entry_iff (o : Obj K) (ho : RdmForm o) (c d : List ℕ) (hi : RdmIndex o c d) (v : K) :
    RdmEntry o c d v ↔ o.arr.data[compound o.r (c ++ d)]? = some v := by
  obtain ⟨p, alp, bet, Ne, ⟨sh, data⟩⟩ := o
  obtain ⟨hsh, hlen⟩ := ho
  obtain ⟨hc, hd, hcr, hdr⟩ := hi
  simp only [Obj.r] at *
  set r := alp.length + bet.length with hr
  have ht := get_tensor p r data c d hc hd hcr hdr
  have hm : p ≠ 1 → (⟨[r ^ p, r ^ p], data⟩ : Arr K).get [compound r c, compound r d] = data[compound r (c ++ d)]? := by
    intro hp
    rw [← ht]
    refine C33_layout p r hp ⟨List.replicate (2 * p) r, data⟩ _ rfl ?_ c d hc hd hcr hdr
    unfold contract
    rw [if_neg hp, Arr.reshape, if_pos]
    simp only [List.prod_cons, List.prod_nil, mul_one, List.prod_replicate, ← pow_add]
    congr 1
    omega
  unfold RdmEntry
  simp only [Obj.r, ← hr]
  have hp1 : p = 1 → c.length = 1 ∧ d.length = 1 := fun h => ⟨by omega, by omega⟩
  constructor
  · rintro (⟨h1, h2⟩ | ⟨h1, h2⟩)
    · rw [h1, ht] at h2
      exact h2
    · by_cases hp : p = 1
      · subst hp
        obtain ⟨x, rfl⟩ := List.length_eq_one_iff.mp hc
        obtain ⟨y, rfl⟩ := List.length_eq_one_iff.mp hd
        have e : sh = List.replicate (2 * 1) r := by rw [h1]; simp [List.replicate]
        rw [e] at h2
        have : [compound r [x], compound r [y]] = [x] ++ [y] := by simp [compound]
        rw [this, ht] at h2
        exact h2
      · rw [h1, hm hp] at h2
        exact h2
  · intro h
    rcases hsh with h1 | ⟨hp, h1⟩
    · exact Or.inl ⟨h1, by rw [h1, ht]; exact h⟩
    · exact Or.inr ⟨h1, by rw [h1, hm hp]; exact h⟩

/-- `expand` of an array in either form. -/
theorem obj_expand (o : Obj K) (ho : RdmForm o) : o.expand = some { o with arr := ⟨List.replicate (2 * o.p) o.r, o.arr.data⟩ } := by
  obtain ⟨p, alp, bet, Ne, ⟨sh, data⟩⟩ := o
  obtain ⟨hsh, hlen⟩ := ho
  simp only [Obj.r, Obj.expand, RDM.expand] at *
  by_cases hp : p = 1
  · rcases hsh with h | ⟨h, _⟩
    · rw [if_pos hp, h]
      rfl
    · exact absurd hp h
  · rw [if_neg hp, Arr.reshape, if_pos]
    · rfl
    · rcases hsh with h | ⟨_, h⟩
      · rw [h]
      · rw [h]
        simp only [List.prod_cons, List.prod_nil, mul_one, List.prod_replicate, ← pow_add]
        congr 1
        omega

theorem compound_index (o : Obj K) (c d : List ℕ) (hi : RdmIndex o c d) : compound o.r (c ++ d) < o.r ^ (2 * o.p) := by
  obtain ⟨hc, hd, hcr, hdr⟩ := hi
  have := compound_lt o.r (c ++ d) (fun x hx => (List.mem_append.mp hx).elim (hcr x) (hdr x))
  rw [List.length_append, hc, hd] at this
  rwa [two_mul]

/-- The arithmetic of two RDMs entry by entry. -/
theorem obj_op (f : K → K → K) (a b : Obj K) (ha : RdmForm a) (hb : RdmForm b) (h1 : a.alp = b.alp) (h2 : a.bet = b.bet) (h3 : a.p = b.p) :
    ∃ s a' b', Obj.op f a b = some (s, a', b') ∧ RdmForm s ∧ RdmForm a' ∧ RdmForm b' ∧ s.arr.shape = List.replicate (2 * a.p) a.r ∧
      s.p = a.p ∧ s.alp = a.alp ∧ s.bet = a.bet ∧ s.Ne = a.Ne ∧ a'.Ne = a.Ne ∧ b'.Ne = b.Ne ∧
      ∀ c d, RdmIndex a c d → ∃ x y, RdmEntry a c d x ∧ RdmEntry b c d y ∧ RdmEntry s c d (f x y) ∧ RdmEntry a' c d x ∧ RdmEntry b' c d y := by
  have hr : a.r = b.r := by unfold Obj.r; rw [h1, h2]
  have la := ha.2
  have lb := hb.2
  have hs : RdmForm (⟨a.p, a.alp, a.bet, a.Ne, ⟨List.replicate (2 * a.p) a.r, List.zipWith f a.arr.data b.arr.data⟩⟩ : Obj K) := by
    refine ⟨Or.inl rfl, ?_⟩
    show (List.zipWith f a.arr.data b.arr.data).length = a.r ^ (2 * a.p)
    rw [List.length_zipWith, la, lb, hr, h3, min_self]
  have ha' : RdmForm ({ a with arr := ⟨List.replicate (2 * a.p) a.r, a.arr.data⟩ } : Obj K) := ⟨Or.inl rfl, la⟩
  have hb' : RdmForm ({ b with arr := ⟨List.replicate (2 * b.p) b.r, b.arr.data⟩ } : Obj K) := ⟨Or.inl rfl, lb⟩
  refine ⟨_, _, _, ?_, hs, ha', hb', rfl, rfl, rfl, rfl, rfl, rfl, rfl, ?_⟩
  · unfold Obj.op
    rw [if_pos ⟨h1, h2, h3⟩, obj_expand a ha, obj_expand b hb]
    simp only [Option.bind_some, Arr.op]
    rw [if_pos (by rw [hr, h3])]
    rfl
  · intro c d hi
    have hib : RdmIndex b c d := by
      unfold RdmIndex at hi ⊢
      rwa [← hr, ← h3]
    have hlt := compound_index a c d hi
    have hxa : compound a.r (c ++ d) < a.arr.data.length := by rw [la]; exact hlt
    have hxb : compound a.r (c ++ d) < b.arr.data.length := by rw [lb, ← hr, ← h3]; exact hlt
    refine ⟨a.arr.data[compound a.r (c ++ d)], b.arr.data[compound a.r (c ++ d)], ?_, ?_, ?_, ?_, ?_⟩
    · exact (entry_iff a ha c d hi _).mpr (List.getElem?_eq_getElem hxa)
    · exact (entry_iff b hb c d hib _).mpr (by rw [← hr]; exact List.getElem?_eq_getElem hxb)
    · refine (entry_iff _ hs c d hi _).mpr ?_
      show (List.zipWith f a.arr.data b.arr.data)[compound a.r (c ++ d)]? = _
      rw [List.getElem?_zipWith, List.getElem?_eq_getElem hxa, List.getElem?_eq_getElem hxb]
    · exact (entry_iff _ ha' c d hi _).mpr (List.getElem?_eq_getElem hxa)
    · exact (entry_iff _ hb' c d hib _).mpr (by show b.arr.data[compound b.r (c ++ d)]? = _; rw [← hr]; exact List.getElem?_eq_getElem hxb)

/-- **C166.** The sum of two RDMs of the same orbitals and order, each stored as tensor or as matrix, succeeds; it is a tensor with the sums of the elements, and both operands keep their elements. -/
theorem C166_add (a b : Obj K) (ha : RdmForm a) (hb : RdmForm b) (h1 : a.alp = b.alp) (h2 : a.bet = b.bet) (h3 : a.p = b.p) :
    ∃ s a' b', a.add b = some (s, a', b') ∧ RdmForm s ∧ RdmForm a' ∧ RdmForm b' ∧ s.arr.shape = List.replicate (2 * a.p) a.r ∧
      s.p = a.p ∧ s.alp = a.alp ∧ s.bet = a.bet ∧ s.Ne = a.Ne ∧ a'.Ne = a.Ne ∧ b'.Ne = b.Ne ∧
      ∀ c d, RdmIndex a c d → ∃ x y, RdmEntry a c d x ∧ RdmEntry b c d y ∧ RdmEntry s c d (x + y) ∧ RdmEntry a' c d x ∧ RdmEntry b' c d y :=
  obj_op _ a b ha hb h1 h2 h3

/-- **C166.** The same for differences. -/
theorem C166_sub (a b : Obj K) (ha : RdmForm a) (hb : RdmForm b) (h1 : a.alp = b.alp) (h2 : a.bet = b.bet) (h3 : a.p = b.p) :
    ∃ s a' b', a.sub b = some (s, a', b') ∧ RdmForm s ∧ RdmForm a' ∧ RdmForm b' ∧ s.arr.shape = List.replicate (2 * a.p) a.r ∧
      s.p = a.p ∧ s.alp = a.alp ∧ s.bet = a.bet ∧ s.Ne = a.Ne ∧ a'.Ne = a.Ne ∧ b'.Ne = b.Ne ∧
      ∀ c d, RdmIndex a c d → ∃ x y, RdmEntry a c d x ∧ RdmEntry b c d y ∧ RdmEntry s c d (x - y) ∧ RdmEntry a' c d x ∧ RdmEntry b' c d y :=
  obj_op _ a b ha hb h1 h2 h3

/-- **C166.** A multiple has the multiplied elements, in the form of the original. -/
theorem C166_scale (a : Obj K) (ha : RdmForm a) (k : K) :
    RdmForm (a.scale k) ∧ (a.scale k).arr.shape = a.arr.shape ∧ (a.scale k).Ne = a.Ne ∧
      ∀ c d, RdmIndex a c d → ∃ x, RdmEntry a c d x ∧ RdmEntry (a.scale k) c d (x * k) := by
  have hs : RdmForm (a.scale k) := ⟨ha.1, by simpa [Obj.scale, Obj.r] using ha.2⟩
  refine ⟨hs, rfl, rfl, fun c d hi => ?_⟩
  have hx : compound a.r (c ++ d) < a.arr.data.length := by rw [ha.2]; exact compound_index a c d hi
  refine ⟨a.arr.data[compound a.r (c ++ d)], (entry_iff a ha c d hi _).mpr (List.getElem?_eq_getElem hx), (entry_iff _ hs c d hi _).mpr ?_⟩
  show (a.arr.data.map (· * k))[compound a.r (c ++ d)]? = _
  rw [List.getElem?_map, List.getElem?_eq_getElem hx]
  rfl

omit [Coef K] in
theorem sum_blocks {M : Type} [AddCommMonoid M] (m r : ℕ) (f : ℕ → M) : ∑ x ∈ Finset.range (m * r), f x = ∑ i ∈ Finset.range m, ∑ k ∈ Finset.range r, f (i * r + k) := by
  induction m with
  | zero => simp
  | succ m ih => rw [Nat.succ_mul, Finset.sum_range_add, ih, Finset.sum_range_succ]

/-- **C166.** `observable` of a two-body RDM in either form is the sum of the products with its elements, and leaves the elements unchanged. -/
theorem C166_observable (o : Obj K) (ho : RdmForm o) (hp : o.p = 2) (H : ℕ → ℕ → K) (D : ℕ → ℕ → ℕ → ℕ → K)
    (hD : ∀ i k j l, i < o.r → k < o.r → j < o.r → l < o.r → RdmEntry o [i, k] [j, l] (D i k j l)) :
    ∃ o', o.observable H = some (∑ i ∈ Finset.range o.r, ∑ k ∈ Finset.range o.r, ∑ j ∈ Finset.range o.r, ∑ l ∈ Finset.range o.r, H (i * o.r + k) (j * o.r + l) * D j l i k, o') ∧
      RdmForm o' ∧ o'.arr.shape = List.replicate (2 * o.p) o.r ∧ o'.Ne = o.Ne ∧
      ∀ i k j l, i < o.r → k < o.r → j < o.r → l < o.r → RdmEntry o' [i, k] [j, l] (D i k j l) := by
  have hix : ∀ i k j l, i < o.r → k < o.r → j < o.r → l < o.r → RdmIndex o [i, k] [j, l] := by
    intro i k j l hi hk hj hl
    exact ⟨by rw [hp]; rfl, by rw [hp]; rfl, by simp [hi, hk], by simp [hj, hl]⟩
  have hdat : ∀ i k j l, i < o.r → k < o.r → j < o.r → l < o.r → o.arr.data[((i * o.r + k) * o.r + j) * o.r + l]? = some (D i k j l) := by
    intro i k j l hi hk hj hl
    have := (entry_iff o ho _ _ (hix i k j l hi hk hj hl) _).mp (hD i k j l hi hk hj hl)
    simpa [compound] using this
  have hp1 : o.p ≠ 1 := by omega
  have hpr : o.arr.shape.prod = o.r ^ (2 * o.p) := by
    rcases ho.1 with h | ⟨_, h⟩
    · rw [h, List.prod_replicate]
    · rw [h]
      simp only [List.prod_cons, List.prod_nil, mul_one, ← pow_add]
      congr 1
      omega
  have hc : RDM.contract o.p o.r o.arr = some ⟨[o.r ^ o.p, o.r ^ o.p], o.arr.data⟩ := by
    unfold RDM.contract Arr.reshape
    rw [if_neg hp1, if_pos]
    rw [hpr]
    simp only [List.prod_cons, List.prod_nil, mul_one, ← pow_add]
    congr 1
    omega
  have he : RDM.expand o.p o.r (⟨[o.r ^ o.p, o.r ^ o.p], o.arr.data⟩ : Arr K) = some ⟨List.replicate (2 * o.p) o.r, o.arr.data⟩ := by
    unfold RDM.expand Arr.reshape
    rw [if_neg hp1, if_pos]
    simp only [List.prod_replicate, List.prod_cons, List.prod_nil, mul_one, ← pow_add]
    congr 1
    omega
  have hf : RdmForm ({ o with arr := ⟨List.replicate (2 * o.p) o.r, o.arr.data⟩ } : Obj K) := ⟨Or.inl rfl, ho.2⟩
  refine ⟨_, ?_, hf, rfl, rfl, ?_⟩
  · unfold Obj.observable
    rw [hc, Option.bind_some, if_pos rfl, he, Option.map_some]
    congr 2
    have e2 : o.r ^ o.p = o.r * o.r := by rw [hp, pow_two]
    rw [e2, sum_blocks]
    refine Finset.sum_congr rfl fun i hi => Finset.sum_congr rfl fun k hk => ?_
    rw [sum_blocks]
    refine Finset.sum_congr rfl fun j hj => Finset.sum_congr rfl fun l hl => ?_
    rw [Finset.mem_range] at hi hk hj hl
    have b : ∀ x y, x < o.r → y < o.r → x * o.r + y < o.r * o.r := by
      intro x y hx hy
      calc x * o.r + y < x * o.r + o.r := by omega
        _ = (x + 1) * o.r := by ring
        _ ≤ o.r * o.r := Nat.mul_le_mul_right _ hx
    have hg : (⟨[o.r * o.r, o.r * o.r], o.arr.data⟩ : Arr K).get [j * o.r + l, i * o.r + k] = some (D j l i k) := by
      unfold Arr.get
      rw [if_pos ⟨rfl, by simp [b j l hj hl, b i k hi hk]⟩, ← hdat j l i k hj hl hi hk]
      congr 1
      simp only [ravel, List.prod_cons, List.prod_nil, mul_one, add_zero]
      ring
    rw [hg, Option.getD_some]
  · intro i k j l hi hk hj hl
    refine (entry_iff _ hf _ _ (hix i k j l hi hk hj hl) _).mpr ?_
    have := hdat i k j l hi hk hj hl
    simpa [compound, Obj.r] using this

/-- **C166.** The observable of a sum of two-body RDMs is the sum of their observables. -/
theorem C166_linear (a b : Obj K) (ha : RdmForm a) (hb : RdmForm b) (h1 : a.alp = b.alp) (h2 : a.bet = b.bet) (h3 : a.p = b.p) (hp : a.p = 2) (H : ℕ → ℕ → K) :
    ∃ s x v w a' b' s', a.add b = some (s, x) ∧ a.observable H = some (v, a') ∧ b.observable H = some (w, b') ∧ s.observable H = some (v + w, s') := by
  obtain ⟨s, a', b', e, fs, _, _, _, sp, sa, sb, _, _, _, q⟩ := C166_add a b ha hb h1 h2 h3
  have hr : a.r = b.r := by unfold Obj.r; rw [h1, h2]
  have hs : s.r = a.r := by unfold Obj.r; rw [sa, sb]
  have hq : ∀ i k j l, ∃ x y, i < a.r → k < a.r → j < a.r → l < a.r → RdmEntry a [i, k] [j, l] x ∧ RdmEntry b [i, k] [j, l] y ∧ RdmEntry s [i, k] [j, l] (x + y) := by
    intro i k j l
    by_cases h : i < a.r ∧ k < a.r ∧ j < a.r ∧ l < a.r
    · obtain ⟨hi, hk, hj, hl⟩ := h
      obtain ⟨x, y, g1, g2, g3, _⟩ := q [i, k] [j, l] ⟨by rw [hp]; rfl, by rw [hp]; rfl, by simp [hi, hk], by simp [hj, hl]⟩
      exact ⟨x, y, fun _ _ _ _ => ⟨g1, g2, g3⟩⟩
    · exact ⟨0, 0, fun a b c d => absurd ⟨a, b, c, d⟩ h⟩
  choose X Y hXY using hq
  obtain ⟨a1, ea, _⟩ := C166_observable a ha hp H X fun i k j l hi hk hj hl => (hXY i k j l hi hk hj hl).1
  obtain ⟨b1, eb, _⟩ := C166_observable b hb (h3 ▸ hp) H Y fun i k j l hi hk hj hl =>
    (hXY i k j l (hr ▸ hi) (hr ▸ hk) (hr ▸ hj) (hr ▸ hl)).2.1
  obtain ⟨s1, es, _⟩ := C166_observable s fs (sp.trans hp) H (fun i k j l => X i k j l + Y i k j l) fun i k j l hi hk hj hl =>
    (hXY i k j l (hs ▸ hi) (hs ▸ hk) (hs ▸ hj) (hs ▸ hl)).2.2
  refine ⟨s, _, _, _, a1, b1, s1, e, ea, eb, ?_⟩
  rw [es, ← hr, hs]
  simp only [mul_add, Finset.sum_add_distrib]

/-- **C166.** RDMs of different orbitals or orders are refused. -/
theorem C166_refused (a b : Obj K) (h : a.alp ≠ b.alp ∨ a.bet ≠ b.bet ∨ a.p ≠ b.p) : a.add b = none ∧ a.sub b = none := by
  have : ¬ (a.alp = b.alp ∧ a.bet = b.bet ∧ a.p = b.p) := by tauto
  exact ⟨if_neg this, if_neg this⟩

/-- **C166 fails** for the number of electrons: RDMs with different numbers are added, and the sum of the same two RDMs then has the one or the other number depending on the order, with the same elements. -/
theorem C166_fails_electrons (a b : Obj K) (ha : RdmForm a) (hb : RdmForm b) (h1 : a.alp = b.alp) (h2 : a.bet = b.bet) (h3 : a.p = b.p) (hN : a.Ne ≠ b.Ne) :
    ∃ s t x y, a.add b = some (s, x) ∧ b.add a = some (t, y) ∧ s.Ne = a.Ne ∧ t.Ne = b.Ne ∧ s ≠ t ∧
      ∀ c d, RdmIndex a c d → ∃ v, RdmEntry s c d v ∧ RdmEntry t c d v := by
  obtain ⟨s, a', b', e1, fs, _, _, _, _, _, _, n1, _, _, q1⟩ := C166_add a b ha hb h1 h2 h3
  obtain ⟨t, b'', a'', e2, ft, _, _, _, _, _, _, n2, _, _, q2⟩ := C166_add b a hb ha h1.symm h2.symm h3.symm
  refine ⟨s, t, _, _, e1, e2, n1, n2, fun h => hN (by rw [← n1, ← n2, h]), fun c d hi => ?_⟩
  have hr : a.r = b.r := by unfold Obj.r; rw [h1, h2]
  have hib : RdmIndex b c d := by
    unfold RdmIndex at hi ⊢
    rwa [← hr, ← h3]
  obtain ⟨x, y, x1, y1, w1, _⟩ := q1 c d hi
  obtain ⟨y', x', y2, x2, w2, _⟩ := q2 c d hib
  have ex : x = x' := Option.some.inj (((entry_iff a ha c d hi _).mp x1).symm.trans ((entry_iff a ha c d hi _).mp x2))
  have ey : y = y' := Option.some.inj (((entry_iff b hb c d hib _).mp y1).symm.trans ((entry_iff b hb c d hib _).mp y2))
  refine ⟨x + y, w1, ?_⟩
  rw [ex, ey, add_comm]
  exact w2

/-- A two-body RDM stored as matrix and one stored as tensor: the hypotheses of `C166_add`, `C166_linear` and `C166_fails_electrons`. -/
example : ∃ a b : Obj GQ, RdmForm a ∧ RdmForm b ∧ a.alp = b.alp ∧ a.bet = b.bet ∧ a.p = b.p ∧ a.Ne ≠ b.Ne ∧ a.arr.shape = [4, 4] ∧ b.arr.shape = [2, 2, 2, 2] ∧
    (a.add b).map (fun x => (x.1.arr.shape, x.1.arr.get [0, 1, 0, 1], x.2.1.arr.shape)) = some ([2, 2, 2, 2], some 3, [2, 2, 2, 2]) :=
  ⟨⟨2, [0], [1], 2, ⟨[4, 4], [0, 0, 0, 0, 0, 1, -1, 0, 0, -1, 1, 0, 0, 0, 0, 0]⟩⟩,
    ⟨2, [0], [1], 3, ⟨[2, 2, 2, 2], [0, 0, 0, 0, 0, 2, -2, 0, 0, -2, 2, 0, 0, 0, 0, 0]⟩⟩,
    ⟨Or.inr ⟨by decide, rfl⟩, rfl⟩, ⟨Or.inl rfl, rfl⟩, rfl, rfl, rfl, by decide, rfl, rfl, by decide +kernel⟩

end Props
end HQCA
