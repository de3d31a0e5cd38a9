import Verif.Props.Residual
import Verif.Model.HFStorage

/-!
# C122: the active-space Hamiltonian gives the energy of the full wave function

`core` is the list of frozen spin orbitals, `active` the spin orbitals of the active space.  The specification is the full second-quantised Hamiltonian on all
orbitals and a state in which the core is filled and the virtual orbitals are empty.
-/

namespace HQCA
namespace Props
open Ham

section
variable {K : Type} [Coef K] {r R : ℕ}

/-! ### Algebra -/

theorem mid_core {A : Type} [Ring A] (P T S C d1 d2 : A) (h1 : S * C = -(C * S)) (h2 : C * T = d1 - T * C) (h3 : C * P = d2 - P * C) :
    P * (T * (S * C)) = d2 * (T * S) - P * (d1 * S) - C * (P * (T * S)) := by
  have hT : T * C = d1 - C * T := by rw [h2]; abel
  have hP : P * C = d2 - C * P := by rw [h3]; abel
  calc P * (T * (S * C)) = -(P * (T * C) * S) := by rw [h1]; noncomm_ring
    _ = (P * C) * (T * S) - P * (d1 * S) := by rw [hT]; noncomm_ring
    _ = _ := by rw [hP]; noncomm_ring

theorem mid_core' {A : Type} [Ring A] (P T C Q d1 d2 : A) (h2 : C * T = d1 - T * C) (h3 : C * P = d2 - P * C) :
    P * (T * (C * Q)) = P * (d1 * Q) - d2 * (T * Q) + C * (P * (T * Q)) := by
  have hT : T * C = d1 - C * T := by rw [h2]; abel
  have hP : P * C = d2 - C * P := by rw [h3]; abel
  calc P * (T * (C * Q)) = P * (T * C) * Q := by noncomm_ring
    _ = P * (d1 * Q) - (P * C) * (T * Q) := by rw [hT]; noncomm_ring
    _ = _ := by rw [hP]; noncomm_ring

theorem out_left {A : Type} [Ring A] (C T S Q : A) (h1 : C * T = -(T * C)) (h2 : S * C = -(C * S)) (h3 : Q * C = -(C * Q)) :
    C * (T * (S * Q)) = -(T * (S * Q)) * C := by
  have e2 : C * S = -(S * C) := by rw [h2, neg_neg]
  have e3 : C * Q = -(Q * C) := by rw [h3, neg_neg]
  calc C * (T * (S * Q)) = (C * T) * (S * Q) := by noncomm_ring
    _ = -(T * ((C * S) * Q)) := by rw [h1]; noncomm_ring
    _ = T * (S * (C * Q)) := by rw [e2]; noncomm_ring
    _ = _ := by rw [e3]; noncomm_ring

/-- An expectation functional with the orbitals of `core` filled and every orbital below `R` outside `core` and `active` empty. -/
structure Filled (ev : Oper K →ₗ[K] K) (R : ℕ) (core : List ℕ) (active : Fin r → ℕ) : Prop where
  one : ev 1 = 1
  coreR : ∀ c ∈ core, ∀ X, ev (X * cre c) = 0
  coreL : ∀ c ∈ core, ∀ X, ev (ann c * X) = 0
  virtR : ∀ v < R, v ∉ core → (∀ i, active i ≠ v) → ∀ X, ev (X * ann v) = 0
  virtL : ∀ v < R, v ∉ core → (∀ i, active i ≠ v) → ∀ X, ev (cre v * X) = 0

/-- The division of the orbitals `0..R-1`. -/
structure Division (R : ℕ) (core : List ℕ) (active : Fin r → ℕ) : Prop where
  nodup : core.Nodup
  inj : Function.Injective active
  disj : ∀ i, active i ∉ core
  coreLt : ∀ c ∈ core, c < R
  actLt : ∀ i, active i < R

variable {core : List ℕ} {active : Fin r → ℕ}

theorem split_sum (hd : Division R core active) (f : ℕ → K) (hf : ∀ v < R, v ∉ core → (∀ i, active i ≠ v) → f v = 0) :
    ∑ p : Fin R, f p.val = (core.map f).sum + ∑ i, f (active i) := by
  rw [Fin.sum_univ_eq_sum_range f R, ← List.sum_toFinset f hd.nodup]
  have e : ∑ i, f (active i) = ∑ v ∈ Finset.univ.image active, f v := by
    rw [Finset.sum_image fun a _ b _ h => hd.inj h]
  rw [e, ← Finset.sum_union]
  · symm
    refine Finset.sum_subset ?_ ?_
    · intro v hv
      rcases Finset.mem_union.mp hv with h | h
      · exact Finset.mem_range.mpr (hd.coreLt v (List.mem_toFinset.mp h))
      · obtain ⟨i, _, rfl⟩ := Finset.mem_image.mp h
        exact Finset.mem_range.mpr (hd.actLt i)
    · intro v hv hn
      refine hf v (Finset.mem_range.mp hv) (fun h => hn (Finset.mem_union_left _ (List.mem_toFinset.mpr h))) fun i h => ?_
      exact hn (Finset.mem_union_right _ (Finset.mem_image.mpr ⟨i, Finset.mem_univ _, h⟩))
  · rw [Finset.disjoint_left]
    intro v hv hv'
    obtain ⟨i, _, rfl⟩ := Finset.mem_image.mp hv'
    exact hd.disj i (List.mem_toFinset.mp hv)

/-- One- and two-body expectation values over all orbitals. -/
def e1 (ev : Oper K →ₗ[K] K) (p q : ℕ) : K := ev (cre p * ann q)
def e2 (ev : Oper K →ₗ[K] K) (p t s q : ℕ) : K := ev (cre p * (cre t * (ann s * ann q)))

variable {ev : Oper K →ₗ[K] K}

theorem Filled.e1_core (h : Filled ev R core active) {c : ℕ} (hc : c ∈ core) (p : ℕ) : e1 ev p c = if p = c then 1 else 0 := by
  unfold e1
  have := car_ann_cre (K := K) c p
  have e : (cre p * ann c : Oper K) = (if c = p then 1 else 0) - ann c * cre p := by rw [this]; abel
  rw [e, map_sub, h.coreL c hc, sub_zero]
  by_cases hp : p = c
  · rw [if_pos hp, if_pos hp.symm, h.one]
  · rw [if_neg hp, if_neg (Ne.symm hp), map_zero]

theorem Filled.e1_core' (h : Filled ev R core active) {c : ℕ} (hc : c ∈ core) (q : ℕ) (hq : q ≠ c) : e1 ev c q = 0 := by
  unfold e1
  have := car_ann_cre (K := K) q c
  have e : (cre c * ann q : Oper K) = -(ann q * cre c) := by rw [this, if_neg hq, zero_sub, neg_neg]
  rw [e, map_neg, h.coreR c hc, neg_zero]

theorem Filled.e2_core (h : Filled ev R core active) {c : ℕ} (hc : c ∈ core) (p t s : ℕ) :
    e2 ev p t s c = (if p = c then e1 ev t s else 0) - if t = c then e1 ev p s else 0 := by
  unfold e2
  rw [mid_core _ _ _ _ _ _ (car_ann_ann s c) (car_ann_cre c t) (car_ann_cre c p), map_sub, map_sub, h.coreL c hc, sub_zero]
  congr 1
  · by_cases hp : p = c
    · rw [if_pos hp, if_pos hp.symm, one_mul]; rfl
    · rw [if_neg hp, if_neg (Ne.symm hp), zero_mul, map_zero]
  · by_cases hp : t = c
    · rw [if_pos hp, if_pos hp.symm, one_mul]; rfl
    · rw [if_neg hp, if_neg (Ne.symm hp), zero_mul, mul_zero, map_zero]

theorem Filled.e2_core' (h : Filled ev R core active) {c : ℕ} (hc : c ∈ core) (p t q : ℕ) :
    e2 ev p t c q = (if t = c then e1 ev p q else 0) - if p = c then e1 ev t q else 0 := by
  unfold e2
  rw [mid_core' _ _ _ _ _ _ (car_ann_cre c t) (car_ann_cre c p), map_add, map_sub, h.coreL c hc, add_zero]
  congr 1
  · by_cases hp : t = c
    · rw [if_pos hp, if_pos hp.symm, one_mul]; rfl
    · rw [if_neg hp, if_neg (Ne.symm hp), zero_mul, mul_zero, map_zero]
  · by_cases hp : p = c
    · rw [if_pos hp, if_pos hp.symm, one_mul]; rfl
    · rw [if_neg hp, if_neg (Ne.symm hp), zero_mul, map_zero]

theorem anti_cre (c q : ℕ) (h : q ≠ c) : (ann q * cre c : Oper K) = -(cre c * ann q) := by
  rw [car_ann_cre, if_neg h, zero_sub]

theorem Filled.e2_left (h : Filled ev R core active) {c : ℕ} (hc : c ∈ core) (t s q : ℕ) (hs : s ≠ c) (hq : q ≠ c) : e2 ev c t s q = 0 := by
  unfold e2
  rw [out_left _ _ _ _ (car_cre_cre c t) (anti_cre c s hs) (anti_cre c q hq)]
  exact h.coreR c hc _

theorem Filled.e2_left' (h : Filled ev R core active) {c : ℕ} (hc : c ∈ core) (p s q : ℕ) (hs : s ≠ c) (hq : q ≠ c) : e2 ev p c s q = 0 := by
  have : e2 ev p c s q = -e2 ev c p s q := by
    unfold e2
    rw [← mul_assoc, car_cre_cre, ← map_neg]
    exact congrArg ev (neg_head _ _ _)
  rw [this, h.e2_left hc p s q hs hq, neg_zero]

/-! ### Sums -/

/-- The one-body energy of a state with filled core. -/
theorem Filled.one_body (h : Filled ev R core active) (hd : Division R core active) (u : ℕ → ℕ → K) :
    ∑ p : Fin R, ∑ q : Fin R, u p.val q.val * e1 ev p.val q.val
      = (core.map fun c => u c c).sum + ∑ i, ∑ j, u (active i) (active j) * e1 ev (active i) (active j) := by
  rw [split_sum hd (fun p => ∑ q : Fin R, u p q.val * e1 ev p q.val)]
  · congr 1
    · refine congrArg List.sum (List.map_congr_left fun c hc => ?_)
      rw [Finset.sum_eq_single ⟨c, hd.coreLt c hc⟩]
      · rw [h.e1_core hc, if_pos rfl, mul_one]
      · intro q _ hq
        rw [h.e1_core' hc q.val (fun e => hq (Fin.ext e)), mul_zero]
      · exact fun hn => absurd (Finset.mem_univ _) hn
    · refine Finset.sum_congr rfl fun i _ => ?_
      rw [split_sum hd (fun q => u (active i) q * e1 ev (active i) q)]
      · rw [List.sum_eq_zero, zero_add]
        intro x hx
        obtain ⟨c, hc, rfl⟩ := List.mem_map.mp hx
        show _ * e1 ev (active i) c = 0
        rw [h.e1_core hc, if_neg (fun e : active i = c => hd.disj i (e ▸ hc)), mul_zero]
      · intro v hv h1 h2
        show _ * ev (cre (active i) * ann v) = 0
        rw [h.virtR v hv h1 h2, mul_zero]
  · intro v hv h1 h2
    refine Finset.sum_eq_zero fun q _ => ?_
    show _ * ev (cre v * ann q.val) = 0
    rw [h.virtL v hv h1 h2, mul_zero]

theorem map_sum_comm {ι : Type} [Fintype ι] (l : List ℕ) (f : ι → ℕ → K) : ∑ i, (l.map (f i)).sum = (l.map fun c => ∑ i, f i c).sum := by
  induction l with
  | nil => simp
  | cons c l ih => simp only [List.map_cons, List.sum_cons, Finset.sum_add_distrib, ih]

theorem map_sum_sub (l : List ℕ) (f g : ℕ → K) : (l.map fun c => f c - g c).sum = (l.map f).sum - (l.map g).sum := by
  induction l with
  | nil => simp
  | cons c l ih => simp only [List.map_cons, List.sum_cons, ih]; ring

/-- The two-body energy of a state with filled core. -/
theorem Filled.two_body (h : Filled ev R core active) (hd : Division R core active) (V : ℕ → ℕ → ℕ → ℕ → K) (hV : ∀ a b c d, V a b c d = V b a d c) :
    ∑ p : Fin R, ∑ t : Fin R, ∑ s : Fin R, ∑ q : Fin R, V p.val t.val q.val s.val * e2 ev p.val t.val s.val q.val
      = (core.map fun c => (core.map fun d => V c d c d - V c d d c).sum).sum
        + 2 * ∑ i, ∑ j, (core.map fun c => V (active i) c (active j) c - V (active i) c c (active j)).sum * e1 ev (active i) (active j)
        + ∑ i, ∑ k, ∑ l, ∑ j, V (active i) (active k) (active j) (active l) * e2 ev (active i) (active k) (active l) (active j) := by
  have hne : ∀ i, ∀ c ∈ core, active i ≠ c := fun i c hc e => hd.disj i (e ▸ hc)
  -- the last index
  have hq : ∀ p t s : ℕ, ∑ q : Fin R, V p t q.val s * e2 ev p t s q.val
      = (core.map fun c => V p t c s * e2 ev p t s c).sum + ∑ j, V p t (active j) s * e2 ev p t s (active j) := by
    intro p t s
    refine split_sum hd (fun q => V p t q s * e2 ev p t s q) fun v hv h1 h2 => ?_
    show _ * ev _ = 0
    rw [show (cre p * (cre t * (ann s * ann v)) : Oper K) = (cre p * (cre t * ann s)) * ann v by simp only [mul_assoc], h.virtR v hv h1 h2, mul_zero]
  have e0 : ∑ p : Fin R, ∑ t : Fin R, ∑ s : Fin R, ∑ q : Fin R, V p.val t.val q.val s.val * e2 ev p.val t.val s.val q.val
      = (∑ p : Fin R, ∑ t : Fin R, ∑ s : Fin R, (core.map fun c => V p.val t.val c s.val * e2 ev p.val t.val s.val c).sum)
        + ∑ p : Fin R, ∑ t : Fin R, ∑ s : Fin R, ∑ j, V p.val t.val (active j) s.val * e2 ev p.val t.val s.val (active j) := by
    simp only [hq, Finset.sum_add_distrib]
  -- last index in the core
  have eA : ∑ p : Fin R, ∑ t : Fin R, ∑ s : Fin R, (core.map fun c => V p.val t.val c s.val * e2 ev p.val t.val s.val c).sum
      = (core.map fun c => (∑ t : Fin R, ∑ s : Fin R, V c t.val c s.val * e1 ev t.val s.val)
          - ∑ p : Fin R, ∑ s : Fin R, V p.val c c s.val * e1 ev p.val s.val).sum := by
    simp only [map_sum_comm]
    refine congrArg List.sum (List.map_congr_left fun c hc => ?_)
    simp only [h.e2_core hc, mul_sub, Finset.sum_sub_distrib]
    congr 1
    · rw [Finset.sum_eq_single ⟨c, hd.coreLt c hc⟩]
      · simp
      · intro p _ hp
        have : p.val ≠ c := fun e => hp (Fin.ext e)
        simp [this]
      · exact fun hn => absurd (Finset.mem_univ _) hn
    · refine Finset.sum_congr rfl fun p _ => ?_
      rw [Finset.sum_eq_single ⟨c, hd.coreLt c hc⟩]
      · simp
      · intro t _ ht
        have : t.val ≠ c := fun e => ht (Fin.ext e)
        simp [this]
      · exact fun hn => absurd (Finset.mem_univ _) hn
  -- last index active
  have eB : ∀ j, ∑ p : Fin R, ∑ t : Fin R, ∑ s : Fin R, V p.val t.val (active j) s.val * e2 ev p.val t.val s.val (active j)
      = (core.map fun c => ∑ i, (V (active i) c (active j) c - V c (active i) (active j) c) * e1 ev (active i) (active j)).sum
        + ∑ i, ∑ k, ∑ l, V (active i) (active k) (active j) (active l) * e2 ev (active i) (active k) (active l) (active j) := by
    intro j
    have hs : ∀ p t : ℕ, ∑ s : Fin R, V p t (active j) s.val * e2 ev p t s.val (active j)
        = (core.map fun c => V p t (active j) c * e2 ev p t c (active j)).sum + ∑ l, V p t (active j) (active l) * e2 ev p t (active l) (active j) := by
      intro p t
      refine split_sum hd (fun s => V p t (active j) s * e2 ev p t s (active j)) fun v hv h1 h2 => ?_
      show _ * ev _ = 0
      rw [car_ann_ann v, neg_tail, map_neg, show (cre p * (cre t * (ann (active j) * ann v)) : Oper K) = (cre p * (cre t * ann (active j))) * ann v by simp only [mul_assoc],
        h.virtR v hv h1 h2, neg_zero, mul_zero]
    simp only [hs, Finset.sum_add_distrib]
    congr 1
    · simp only [map_sum_comm]
      refine congrArg List.sum (List.map_congr_left fun c hc => ?_)
      simp only [h.e2_core' hc, mul_sub, Finset.sum_sub_distrib, sub_mul]
      have one : ∀ u : ℕ → K, ∑ p : Fin R, u p.val * e1 ev p.val (active j) = ∑ i, u (active i) * e1 ev (active i) (active j) := by
        intro u
        rw [split_sum hd (fun p => u p * e1 ev p (active j))]
        · rw [List.sum_eq_zero, zero_add]
          intro x hx
          obtain ⟨d, hd', rfl⟩ := List.mem_map.mp hx
          show _ * e1 ev d (active j) = 0
          rw [h.e1_core' hd' _ (hne j d hd'), mul_zero]
        · intro v hv h1 h2
          show _ * ev _ = 0
          rw [h.virtL v hv h1 h2, mul_zero]
      congr 1
      · rw [← one fun x => V x c (active j) c]
        refine Finset.sum_congr rfl fun p _ => ?_
        rw [Finset.sum_eq_single ⟨c, hd.coreLt c hc⟩]
        · simp
        · intro t _ ht
          have : t.val ≠ c := fun e => ht (Fin.ext e)
          simp [this]
        · exact fun hn => absurd (Finset.mem_univ _) hn
      · rw [← one fun x => V c x (active j) c]
        rw [Finset.sum_eq_single ⟨c, hd.coreLt c hc⟩]
        · simp
        · intro t _ ht
          have : t.val ≠ c := fun e => ht (Fin.ext e)
          simp [this]
        · exact fun hn => absurd (Finset.mem_univ _) hn
    · rw [split_sum hd (fun p => ∑ t : Fin R, ∑ l, V p t.val (active j) (active l) * e2 ev p t.val (active l) (active j))]
      · rw [List.sum_eq_zero, zero_add]
        · refine Finset.sum_congr rfl fun i _ => ?_
          rw [split_sum hd (fun t => ∑ l, V (active i) t (active j) (active l) * e2 ev (active i) t (active l) (active j))]
          · rw [List.sum_eq_zero, zero_add]
            intro x hx
            obtain ⟨c, hc, rfl⟩ := List.mem_map.mp hx
            refine Finset.sum_eq_zero fun l _ => ?_
            rw [h.e2_left' hc _ _ _ (hne l c hc) (hne j c hc), mul_zero]
          · intro v hv h1 h2
            refine Finset.sum_eq_zero fun l _ => ?_
            show _ * ev _ = 0
            rw [← mul_assoc, car_cre_cre, neg_head, map_neg, h.virtL v hv h1 h2, neg_zero, mul_zero]
        · intro x hx
          obtain ⟨c, hc, rfl⟩ := List.mem_map.mp hx
          refine Finset.sum_eq_zero fun t _ => Finset.sum_eq_zero fun l _ => ?_
          rw [h.e2_left hc _ _ _ (hne l c hc) (hne j c hc), mul_zero]
      · intro v hv h1 h2
        refine Finset.sum_eq_zero fun t _ => Finset.sum_eq_zero fun l _ => ?_
        show _ * ev _ = 0
        rw [h.virtL v hv h1 h2, mul_zero]
  have hM : ∑ i, ∑ j, (core.map fun c => V (active i) c (active j) c - V (active i) c c (active j)).sum * e1 ev (active i) (active j)
      = (core.map fun c => ∑ i, ∑ j, (V (active i) c (active j) c - V (active i) c c (active j)) * e1 ev (active i) (active j)).sum := by
    rw [← map_sum_comm]
    refine Finset.sum_congr rfl fun i _ => ?_
    rw [← map_sum_comm]
    refine Finset.sum_congr rfl fun j _ => ?_
    rw [← List.sum_map_mul_right]
  have eA' : (core.map fun c => (∑ t : Fin R, ∑ s : Fin R, V c t.val c s.val * e1 ev t.val s.val)
          - ∑ p : Fin R, ∑ s : Fin R, V p.val c c s.val * e1 ev p.val s.val).sum
      = (core.map fun c => (core.map fun d => V c d c d - V c d d c).sum).sum
        + (core.map fun c => ∑ i, ∑ j, (V (active i) c (active j) c - V (active i) c c (active j)) * e1 ev (active i) (active j)).sum := by
    rw [← List.sum_map_add]
    refine congrArg List.sum (List.map_congr_left fun c _ => ?_)
    rw [h.one_body hd (fun t s => V c t c s), h.one_body hd (fun p s => V p c c s), add_sub_add_comm]
    congr 1
    · rw [← map_sum_sub]
      refine congrArg List.sum (List.map_congr_left fun d _ => ?_)
      rw [hV d c c d]
    · rw [← Finset.sum_sub_distrib]
      refine Finset.sum_congr rfl fun i _ => ?_
      rw [← Finset.sum_sub_distrib]
      refine Finset.sum_congr rfl fun j _ => ?_
      rw [hV c (active i) c (active j), sub_mul]
  have eC : ∑ p : Fin R, ∑ t : Fin R, ∑ s : Fin R, ∑ j, V p.val t.val (active j) s.val * e2 ev p.val t.val s.val (active j)
      = ∑ j, ∑ p : Fin R, ∑ t : Fin R, ∑ s : Fin R, V p.val t.val (active j) s.val * e2 ev p.val t.val s.val (active j) := by
    symm
    rw [Finset.sum_comm]
    refine Finset.sum_congr rfl fun p _ => ?_
    rw [Finset.sum_comm]
    refine Finset.sum_congr rfl fun t _ => ?_
    rw [Finset.sum_comm]
  have eD : ∑ j, (core.map fun c => ∑ i, (V (active i) c (active j) c - V c (active i) (active j) c) * e1 ev (active i) (active j)).sum
      = (core.map fun c => ∑ i, ∑ j, (V (active i) c (active j) c - V (active i) c c (active j)) * e1 ev (active i) (active j)).sum := by
    rw [map_sum_comm]
    refine congrArg List.sum (List.map_congr_left fun c _ => ?_)
    rw [Finset.sum_comm]
    refine Finset.sum_congr rfl fun i _ => Finset.sum_congr rfl fun j _ => ?_
    rw [hV c (active i) (active j) c]
  have eE : ∑ j, ∑ i, ∑ k, ∑ l, V (active i) (active k) (active j) (active l) * e2 ev (active i) (active k) (active l) (active j)
      = ∑ i, ∑ k, ∑ l, ∑ j, V (active i) (active k) (active j) (active l) * e2 ev (active i) (active k) (active l) (active j) := by
    rw [Finset.sum_comm]
    refine Finset.sum_congr rfl fun i _ => ?_
    rw [Finset.sum_comm]
    refine Finset.sum_congr rfl fun k _ => ?_
    rw [Finset.sum_comm]
  rw [e0, eA, eA', eC, Finset.sum_congr rfl fun j _ => eB j, Finset.sum_add_distrib, eD, eE, hM]
  ring

theorem core1e_eq (h : ℕ → ℕ → K) (V : ℕ → ℕ → ℕ → ℕ → K) (active : Fin r → ℕ) (core : List ℕ) (i j : Fin r) :
    core1e h V active core i j = h (active i) (active j) + (core.map fun k => V (active i) k (active j) k - V (active i) k k (active j)).sum := by
  unfold core1e
  have : ∀ (l : List ℕ) (x : K), l.foldl (fun x k => x + V (active i) k (active j) k - V (active i) k k (active j)) x
      = x + (l.map (fun k => V (active i) k (active j) k - V (active i) k k (active j))).sum := by
    intro l
    induction l with
    | nil => intro x; simp
    | cons k l ih => intro x; rw [List.foldl_cons, ih, List.map_cons, List.sum_cons]; ring
  rw [this, zero_add]

theorem coreEnergy_eq (h : ℕ → ℕ → K) (V : ℕ → ℕ → ℕ → ℕ → K) (core : List ℕ) (nuc : K) :
    coreEnergy h V core nuc = (core.map fun c => h c c).sum + 1 / 2 * (core.map fun c => (core.map fun d => V c d c d - V c d d c).sum).sum + nuc := by
  unfold coreEnergy
  congr 1
  have inner : ∀ (i : ℕ) (l : List ℕ) (x : K), l.foldl (fun e j => e + 1 / 2 * V i j i j - 1 / 2 * V i j j i) x
      = x + 1 / 2 * (l.map fun d => V i d i d - V i d d i).sum := by
    intro i l
    induction l with
    | nil => intro x; simp
    | cons k l ih => intro x; rw [List.foldl_cons, ih, List.map_cons, List.sum_cons]; ring
  have outer : ∀ (l : List ℕ) (x : K), l.foldl (fun e i => core.foldl (fun e j => e + 1 / 2 * V i j i j - 1 / 2 * V i j j i) (e + h i i)) x
      = x + (l.map fun c => h c c).sum + 1 / 2 * (l.map fun c => (core.map fun d => V c d c d - V c d d c).sum).sum := by
    intro l
    induction l with
    | nil => intro x; simp
    | cons k l ih => intro x; rw [List.foldl_cons, ih, inner]; simp only [List.map_cons, List.sum_cons]; ring
  rw [outer, zero_add]

/-- The number operator of the active orbitals. -/
def actNumber (active : Fin r → ℕ) : Oper K := ∑ b, cre (active b) * ann (active b)

theorem ann_actNumber (ha : Function.Injective active) (a : Fin r) :
    (ann (active a) * actNumber active : Oper K) = actNumber active * ann (active a) + ann (active a) := by
  have h : ∀ b : Fin r, (ann (active a) * (cre (active b) * ann (active b)) : Oper K)
      = cre (active b) * ann (active b) * ann (active a) + (if a = b then ann (active a) else 0) := by
    intro b
    rw [← mul_assoc, car_ann_cre]
    by_cases hab : a = b
    · subst hab
      rw [if_pos rfl, if_pos rfl, sub_mul, one_mul]
      have h1 : (cre (active a) * ann (active a) * ann (active a) : Oper K) = 0 := by
        rw [mul_assoc, show (ann (active a) * ann (active a) : Oper K) = 0 from fop_contr_zero (active a) .an .an rfl, mul_zero]
      rw [h1]
      simp
    · rw [if_neg (fun h => hab (ha h)), if_neg hab, zero_sub, add_zero]
      rw [mul_assoc (cre (active b)), car_ann_ann (active b) (active a)]
      exact neg_mid _ _ _
  unfold actNumber
  rw [Finset.mul_sum, Finset.sum_congr rfl (fun b _ => h b), Finset.sum_add_distrib, Finset.sum_mul]
  simp

theorem sum4 (f : Fin r → Fin r → Fin r → Fin r → K) : ∑ a, ∑ b, ∑ c, ∑ d, f c d a b = ∑ i, ∑ k, ∑ l, ∑ j, f i k j l := by
  calc _ = ∑ a, ∑ c, ∑ b, ∑ d, f c d a b := Finset.sum_congr rfl fun a _ => Finset.sum_comm
    _ = ∑ c, ∑ a, ∑ b, ∑ d, f c d a b := Finset.sum_comm
    _ = ∑ c, ∑ a, ∑ d, ∑ b, f c d a b := Finset.sum_congr rfl fun c _ => Finset.sum_congr rfl fun a _ => Finset.sum_comm
    _ = ∑ c, ∑ d, ∑ a, ∑ b, f c d a b := Finset.sum_congr rfl fun c _ => Finset.sum_comm
    _ = ∑ c, ∑ d, ∑ b, ∑ a, f c d a b := Finset.sum_congr rfl fun c _ => Finset.sum_congr rfl fun d _ => Finset.sum_comm

/-- **C122**, for expectation functionals: with the core filled and the virtual orbitals empty, the reduced Hamiltonian of the active space and the constant energy
give the energy of the full Hamiltonian. -/
theorem C122_functional (h : Filled ev R core active) (hd : Division R core active) (ne : K) (hne : ne ≠ 1)
    (hN : ∀ X : Oper K, ev (X * actNumber active) = ne * ev X) (u : ℕ → ℕ → K) (V : ℕ → ℕ → ℕ → ℕ → K) (hu : ∀ a b, u a b = u b a)
    (hV : ∀ a b c d, V a b c d = V c d a b) (hV' : ∀ a b c d, V a b c d = V b a d c) (nuc : K) :
    observable (k2 (core1e u V active core) (fun a b c d => V (active a) (active b) (active c) (active d)) ne)
        (fun i k j l => e2 ev (active i) (active k) (active l) (active j)) + coreEnergy u V core nuc
      = ev (secondQ (r := R) (fun a b => u a.val b.val) fun a b c d => V a.val b.val c.val d.val) + nuc := by
  have hl : ∀ a b c d : Fin r, e2 ev (active a) (active b) (active d) (active c) = -e2 ev (active b) (active a) (active d) (active c) := by
    intro a b c d
    unfold e2
    rw [← mul_assoc, car_cre_cre, ← map_neg]
    exact congrArg ev (neg_head _ _ _)
  have hr : ∀ a b c d : Fin r, e2 ev (active a) (active b) (active d) (active c) = -e2 ev (active a) (active b) (active c) (active d) := by
    intro a b c d
    unfold e2
    rw [car_ann_ann (active d) (active c), ← map_neg]
    exact congrArg ev (neg_tail _ _ _)
  have hc : ∀ a c : Fin r, ∑ b, e2 ev (active a) (active b) (active b) (active c) = (ne - 1) * e1 ev (active a) (active c) := by
    intro a c
    have h1 : ∑ b, e2 ev (active a) (active b) (active b) (active c) = ev (cre (active a) * (actNumber active * ann (active c))) := by
      unfold e2 actNumber
      rw [← map_sum]
      congr 1
      rw [Finset.sum_mul, Finset.mul_sum]
      exact Finset.sum_congr rfl fun b _ => by simp only [mul_assoc]
    have h2 : (actNumber active * ann (active c) : Oper K) = ann (active c) * actNumber active - ann (active c) := by
      rw [ann_actNumber hd.inj]; abel
    rw [h1, h2, mul_sub, map_sub, ← mul_assoc, hN]
    unfold e1
    ring
  have hsym : ∀ a b : Fin r, core1e u V active core a b = core1e u V active core b a := by
    intro a b
    rw [core1e_eq, core1e_eq, hu]
    congr 2
    refine List.map_congr_left fun k _ => ?_
    rw [hV (active a) k (active b) k, hV (active a) k k (active b), hV' k (active b) (active a) k]
  have h1 := h.one_body hd u
  have h2 := h.two_body hd V hV'
  have hs : ev (secondQ (r := R) (fun a b => u a.val b.val) fun a b c d => V a.val b.val c.val d.val)
      = (∑ p : Fin R, ∑ q : Fin R, u p.val q.val * e1 ev p.val q.val)
        + 1 / 2 * ∑ p : Fin R, ∑ t : Fin R, ∑ s : Fin R, ∑ q : Fin R, V p.val t.val q.val s.val * e2 ev p.val t.val s.val q.val := by
    unfold secondQ
    simp only [map_add, map_sum, map_smul, smul_eq_mul, Finset.mul_sum, mul_assoc]
    rfl
  rw [hs, h1, h2, coreEnergy_eq, C51_energy _ _ _ (fun a c => e1 ev (active a) (active c)) ne hne (fun a b c d => hl a b c d) (fun a b c d => hr a b c d)
    (fun a c => hc a c)]
  have hT : ∑ a, ∑ b, ∑ c, ∑ d, V (active a) (active b) (active c) (active d) * e2 ev (active c) (active d) (active b) (active a)
      = ∑ i, ∑ k, ∑ l, ∑ j, V (active i) (active k) (active j) (active l) * e2 ev (active i) (active k) (active l) (active j) := by
    rw [← sum4 fun i k j l => V (active i) (active k) (active j) (active l) * e2 ev (active i) (active k) (active l) (active j)]
    refine Finset.sum_congr rfl fun a _ => Finset.sum_congr rfl fun b _ => Finset.sum_congr rfl fun c _ => Finset.sum_congr rfl fun d _ => ?_
    rw [hV (active a)]
  rw [hT]
  have hO : ∑ a, ∑ c, core1e u V active core a c * e1 ev (active c) (active a)
      = (∑ i, ∑ j, u (active i) (active j) * e1 ev (active i) (active j))
        + ∑ i, ∑ j, (core.map fun c => V (active i) c (active j) c - V (active i) c c (active j)).sum * e1 ev (active i) (active j) := by
    rw [Finset.sum_comm, ← Finset.sum_add_distrib]
    refine Finset.sum_congr rfl fun i _ => ?_
    rw [← Finset.sum_add_distrib]
    refine Finset.sum_congr rfl fun j _ => ?_
    rw [hsym, core1e_eq, add_mul]
  rw [hO]
  have h2' : (2 : K) ≠ 0 := Coef.two_ne_zero'
  field_simp
  ring

/-! ### The full state of a state of the active space -/

/-- A configuration with the core filled and everything outside core and active space empty. -/
def Compat (core : List ℕ) (active : Fin r → ℕ) (c : Cfg) : Prop :=
  (∀ x ∈ core, c x = true) ∧ ∀ x, x ∉ core → (∀ i, active i ≠ x) → c x = false

/-- The occupations of the active orbitals. -/
def res (active : Fin r → ℕ) (c : Cfg) : Cfg := fun i => if h : i < r then c (active ⟨i, h⟩) else false

open Classical in
/-- The configuration with filled core and given occupations of the active orbitals. -/
noncomputable def up (core : List ℕ) (active : Fin r → ℕ) (b : Cfg) : Cfg := fun x => decide (x ∈ core ∨ ∃ i : Fin r, active i = x ∧ b i.val = true)

/-- The sign of moving the active electrons past the core. -/
def tw (core : List ℕ) (active : Fin r → ℕ) (b : Cfg) : K := ∏ i : Fin r, if b i.val = true then (-1) ^ (core.filter (· < active i)).length else 1

open Classical in
/-- The wave function with filled core. -/
noncomputable def emb (core : List ℕ) (active : Fin r → ℕ) : (Cfg → K) →ₗ[K] (Cfg → K) where
  toFun φ c := if Compat core active c then tw core active (res active c) * φ (res active c) else 0
  map_add' φ χ := by funext c; simp only [Pi.add_apply]; split <;> ring
  map_smul' a φ := by funext c; simp only [Pi.smul_apply, smul_eq_mul, RingHom.id_apply]; split <;> ring

theorem emb_apply (φ : Cfg → K) (c : Cfg) (h : Compat core active c) : emb core active φ c = tw core active (res active c) * φ (res active c) := if_pos h

theorem emb_out (φ : Cfg → K) (c : Cfg) (h : ¬Compat core active c) : emb core active φ c = 0 := if_neg h

theorem compat_update (c : Cfg) (i : Fin r) (v : Bool) (hi : active i ∉ core) :
    Compat core active (Function.update c (active i) v) ↔ Compat core active c := by
  unfold Compat
  refine and_congr (forall_congr' fun x => forall_congr' fun hx => ?_) (forall_congr' fun x => forall_congr' fun hx => forall_congr' fun ha => ?_)
  · rw [Function.update_of_ne (fun e : x = active i => hi (e ▸ hx))]
  · rw [Function.update_of_ne (fun e : x = active i => ha i e.symm)]

theorem res_update (ha : Function.Injective active) (c : Cfg) (i : Fin r) (v : Bool) :
    res active (Function.update c (active i) v) = Function.update (res active c) i.val v := by
  funext x
  unfold res
  by_cases hx : x = i.val
  · subst hx
    rw [Function.update_self, dif_pos i.isLt, Fin.eta, Function.update_self]
  · rw [Function.update_of_ne hx]
    split
    · rename_i h
      rw [Function.update_of_ne fun e => hx (congrArg Fin.val (ha e))]
    · rfl

theorem res_self (c : Cfg) (i : Fin r) : res active c i.val = c (active i) := by
  unfold res
  rw [dif_pos i.isLt, Fin.eta]

theorem tw_sq (b : Cfg) : (tw core active b * tw core active b : K) = 1 := by
  unfold tw
  rw [← Finset.prod_mul_distrib]
  refine Finset.prod_eq_one fun i _ => ?_
  split
  · rw [← mul_pow]; norm_num
  · ring

theorem tw_conj (b : Cfg) : conj (tw core active b : K) = tw core active b := by
  have : (tw core active b : K) = 1 ∨ (tw core active b : K) = -1 := by
    unfold tw
    refine Finset.prod_induction _ (fun z : K => z = 1 ∨ z = -1) ?_ (Or.inl rfl) fun i _ => ?_
    · rintro a b (rfl | rfl) (rfl | rfl) <;> simp
    · split
      · exact neg_one_pow_eq_or K _
      · exact Or.inl rfl
  rcases this with e | e <;> rw [e]
  · exact conj_one
  · rw [conj_neg, conj_one]

theorem tw_flip (b : Cfg) (i : Fin r) : (tw core active (Function.update b i.val true) : K)
    = (-1) ^ (core.filter (· < active i)).length * tw core active (Function.update b i.val false) := by
  unfold tw
  rw [← Finset.mul_prod_erase _ _ (Finset.mem_univ i), ← Finset.mul_prod_erase (a := i) _ _ (Finset.mem_univ i)]
  simp only [Function.update_self, if_true, Bool.false_eq_true, if_false, one_mul]
  congr 1
  refine Finset.prod_congr rfl fun j hj => ?_
  have : j.val ≠ i.val := fun e => (Finset.mem_erase.mp hj).1 (Fin.ext e)
  rw [Function.update_of_ne this, Function.update_of_ne this]

theorem fsign_compat (hm : StrictMono active) (hn : core.Nodup) (hd : ∀ i, active i ∉ core) (c : Cfg) (h : Compat core active c) (i : Fin r) :
    (fsign c (active i) : K) = (-1) ^ (core.filter (· < active i)).length * fsign (res active c) i.val := by
  classical
  unfold fsign
  rw [← pow_add]
  congr 1
  have hnd : (core.filter (· < active i)).Nodup := hn.filter _
  rw [← List.toFinset_card_of_nodup hnd]
  have himg : ((Finset.range i.val).filter fun j => res active c j = true).card
      = (((Finset.univ : Finset (Fin r)).filter fun j => j < i ∧ c (active j) = true).image active).card := by
    rw [Finset.card_image_of_injective _ hm.injective, ← Finset.card_image_of_injective _ Fin.val_injective]
    congr 1
    ext j
    simp only [Finset.mem_filter, Finset.mem_range, Finset.mem_image, Finset.mem_univ, true_and]
    constructor
    · rintro ⟨h1, h2⟩
      refine ⟨⟨j, by omega⟩, ⟨Fin.lt_def.mpr h1, ?_⟩, rfl⟩
      exact (res_self (active := active) c ⟨j, by omega⟩).symm.trans h2
    · rintro ⟨k, ⟨h1, h2⟩, rfl⟩
      exact ⟨Fin.lt_def.mp h1, by rw [res_self]; exact h2⟩
  rw [himg, ← Finset.card_union_of_disjoint]
  · congr 1
    ext x
    simp only [Finset.mem_filter, Finset.mem_range, Finset.mem_union, List.mem_toFinset, List.mem_filter, decide_eq_true_eq, Finset.mem_image, Finset.mem_univ, true_and]
    constructor
    · rintro ⟨h1, h2⟩
      by_cases hx : x ∈ core
      · exact Or.inl ⟨hx, h1⟩
      · right
        by_contra hno
        push Not at hno
        have : c x = false := h.2 x hx fun j e => by
          subst e
          exact hno j ⟨hm.lt_iff_lt.mp h1, h2⟩ rfl
        rw [this] at h2
        exact absurd h2 (by simp)
    · rintro (⟨h1, h2⟩ | ⟨j, ⟨h1, h2⟩, rfl⟩)
      · exact ⟨h2, h.1 x h1⟩
      · exact ⟨hm h1, h2⟩
  · rw [Finset.disjoint_left]
    intro x hx hx'
    obtain ⟨j, _, rfl⟩ := Finset.mem_image.mp hx'
    exact hd j (List.mem_filter.mp (List.mem_toFinset.mp hx)).1

theorem ann_emb (hm : StrictMono active) (hn : core.Nodup) (hd : ∀ i, active i ∉ core) (φ : Cfg → K) (i : Fin r) :
    (ann (active i) : Oper K) (emb core active φ) = emb core active ((ann i.val : Oper K) φ) := by
  funext c
  show (if c (active i) then 0 else fsign c (active i) * emb core active φ (Function.update c (active i) true)) = _
  by_cases hc : Compat core active c
  · have hc' := (compat_update (core := core) c i true (hd i)).mpr hc
    rw [emb_apply _ _ hc]
    show _ = _ * (if res active c i.val then 0 else fsign (res active c) i.val * φ (Function.update (res active c) i.val true))
    rw [res_self]
    by_cases ho : c (active i) = true
    · rw [if_pos ho, if_pos ho, mul_zero]
    · rw [if_neg ho, if_neg ho, emb_apply _ _ hc', res_update hm.injective, tw_flip, fsign_compat hm hn hd c hc]
      have e : Function.update (res active c) i.val false = res active c := by
        rw [Function.update_eq_self_iff, res_self]; simpa using ho
      rw [e]
      have : ((-1 : K) ^ (core.filter (· < active i)).length) * (-1) ^ (core.filter (· < active i)).length = 1 := by rw [← mul_pow]; norm_num
      linear_combination (fsign (res active c) i.val * tw core active (res active c) * φ (Function.update (res active c) i.val true)) * this
  · rw [emb_out _ _ hc, emb_out _ _ (fun h => hc ((compat_update c i true (hd i)).mp h)), mul_zero, ite_self]

theorem cre_emb (hm : StrictMono active) (hn : core.Nodup) (hd : ∀ i, active i ∉ core) (φ : Cfg → K) (i : Fin r) :
    (cre (active i) : Oper K) (emb core active φ) = emb core active ((cre i.val : Oper K) φ) := by
  funext c
  show (if c (active i) then fsign c (active i) * emb core active φ (Function.update c (active i) false) else 0) = _
  by_cases hc : Compat core active c
  · have hc' := (compat_update (core := core) c i false (hd i)).mpr hc
    rw [emb_apply _ _ hc]
    show _ = _ * (if res active c i.val then fsign (res active c) i.val * φ (Function.update (res active c) i.val false) else 0)
    rw [res_self]
    by_cases ho : c (active i) = true
    · rw [if_pos ho, if_pos ho, emb_apply _ _ hc', res_update hm.injective, fsign_compat hm hn hd c hc]
      have e : Function.update (res active c) i.val true = res active c := by
        rw [Function.update_eq_self_iff, res_self, ho]
      have hf := tw_flip (K := K) (core := core) (active := active) (res active c) i
      rw [e] at hf
      rw [hf]
      ring
    · rw [if_neg ho, if_neg ho, mul_zero]
  · rw [emb_out _ _ hc, emb_out _ _ (fun h => hc ((compat_update c i false (hd i)).mp h)), mul_zero, ite_self]

/-- A wave function on the orbitals `0..r-1`. -/
def Within (r : ℕ) (φ : Cfg →₀ K) : Prop := ∀ b, φ b ≠ 0 → ∀ i, r ≤ i → b i = false

theorem res_up (ha : Function.Injective active) (hd : ∀ i, active i ∉ core) (b : Cfg) (hb : ∀ i, r ≤ i → b i = false) : res active (up core active b) = b := by
  funext x
  unfold res
  split
  · rename_i h
    unfold up
    have : (active ⟨x, h⟩ ∈ core ∨ ∃ i : Fin r, active i = active ⟨x, h⟩ ∧ b i.val = true) ↔ b x = true := by
      constructor
      · rintro (h1 | ⟨i, h1, h2⟩)
        · exact absurd h1 (hd _)
        · rw [ha h1] at h2; exact h2
      · exact fun h1 => Or.inr ⟨_, rfl, h1⟩
    simp only [this, Bool.decide_eq_true]
  · rename_i h
    exact (hb x (by omega)).symm

theorem up_res (c : Cfg) (h : Compat core active c) : up core active (res active c) = c := by
  funext x
  unfold up
  have : (x ∈ core ∨ ∃ i : Fin r, active i = x ∧ res active c i.val = true) ↔ c x = true := by
    constructor
    · rintro (h1 | ⟨i, rfl, h2⟩)
      · exact h.1 x h1
      · rwa [res_self] at h2
    · intro h1
      by_cases hx : x ∈ core
      · exact Or.inl hx
      · right
        by_contra hno
        push Not at hno
        have := h.2 x hx fun i e => hno i e (by rw [res_self, e]; exact h1)
        rw [this] at h1
        exact absurd h1 (by simp)
  simp only [this, Bool.decide_eq_true]

theorem compat_up (b : Cfg) : Compat core active (up core active b) := by
  constructor
  · intro x hx
    unfold up
    simp [hx]
  · intro x hx ha
    unfold up
    simp only [decide_eq_false_iff_not, not_or, not_exists, not_and]
    exact ⟨hx, fun i h => absurd h (ha i)⟩

open Classical in
/-- The full wave function. -/
noncomputable def embF (core : List ℕ) (active : Fin r → ℕ) (φ : Cfg →₀ K) : Cfg →₀ K :=
  Finsupp.onFinset (φ.support.image (up core active)) (emb core active φ) fun c hc => by
    have hcc : Compat core active c := by by_contra h; exact hc (emb_out _ _ h)
    rw [emb_apply _ _ hcc] at hc
    exact Finset.mem_image.mpr ⟨res active c, Finsupp.mem_support_iff.mpr (right_ne_zero_of_mul hc), up_res c hcc⟩

theorem embF_coe (φ : Cfg →₀ K) : (embF core active φ : Cfg → K) = emb core active φ := rfl

theorem embF_compat (φ : Cfg →₀ K) (c : Cfg) (h : embF core active φ c ≠ 0) : Compat core active c := by
  by_contra hn
  exact h (emb_out _ _ hn)

theorem pair_emb (ha : Function.Injective active) (hd : ∀ i, active i ∉ core) (φ : Cfg →₀ K) (hφ : Within r φ) (χ : Cfg → K) :
    pair (embF core active φ) (emb core active χ) = pair φ χ := by
  classical
  unfold pair
  unfold embF
  rw [Finsupp.onFinset_sum _ (fun b => by rw [conj_zero, zero_mul]), Finset.sum_image, Finsupp.sum]
  · refine Finset.sum_congr rfl fun b hb => ?_
    have hw := hφ b (Finsupp.mem_support_iff.mp hb)
    rw [emb_apply _ _ (compat_up b), emb_apply _ _ (compat_up b), res_up ha hd b hw, Coef.conj_mul, tw_conj]
    linear_combination (conj (φ b) * χ b) * tw_sq (K := K) (core := core) (active := active) b
  · intro b hb b' hb' e
    have h1 := res_up ha hd b (hφ b (Finsupp.mem_support_iff.mp hb))
    rw [← h1, e, res_up ha hd b' (hφ b' (Finsupp.mem_support_iff.mp hb'))]

theorem pair_congr (φ : Cfg →₀ K) (f g : Cfg → K) (h : ∀ b, φ b ≠ 0 → f b = g b) : pair φ f = pair φ g := by
  unfold pair
  exact Finsupp.sum_congr fun b hb => by rw [h b (Finsupp.mem_support_iff.mp hb)]

theorem filled_embF (hd : Division R core active) (φ : Cfg →₀ K) (hφ : Within r φ) (h1 : pair φ φ = 1) :
    Filled (evState (embF core active φ)) R core active where
  one := by
    show pair (embF core active φ) (embF core active φ) = 1
    rw [embF_coe, pair_emb hd.inj hd.disj φ hφ, h1]
  coreR c hc X := by
    show pair _ (X ((cre c : Oper K) (embF core active φ))) = 0
    have : (cre c : Oper K) (embF core active φ) = 0 := by
      funext b
      show (if b c then fsign b c * emb core active φ (Function.update b c false) else 0) = 0
      rw [emb_out _ _ fun h => by have := h.1 c hc; simp at this, mul_zero, ite_self]
    rw [this, map_zero]
    unfold pair
    simp
  coreL c hc X := by
    show pair _ ((ann c : Oper K) (X (embF core active φ))) = 0
    rw [pair_congr _ _ 0 fun b hb => ?_]
    · unfold pair
      simp
    · show (if b c then 0 else _) = (0 : K)
      rw [if_pos ((embF_compat φ b hb).1 c hc)]
  virtR v _ h1 h2 X := by
    show pair _ (X ((ann v : Oper K) (embF core active φ))) = 0
    have : (ann v : Oper K) (embF core active φ) = 0 := by
      funext b
      show (if b v then 0 else fsign b v * emb core active φ (Function.update b v true)) = 0
      rw [emb_out _ _ fun h => by have := h.2 v h1 h2; simp at this, mul_zero, ite_self]
    rw [this, map_zero]
    unfold pair
    simp
  virtL v _ h1 h2 X := by
    show pair _ ((cre v : Oper K) (X (embF core active φ))) = 0
    rw [pair_congr _ _ 0 fun b hb => ?_]
    · unfold pair
      simp
    · show (if b v then _ else 0) = (0 : K)
      rw [if_neg (by rw [(embF_compat φ b hb).2 v h1 h2]; simp)]

/-- **C122** for a general division of the orbitals: the energy assigned to a state of the active space is the energy, for the full Hamiltonian, of the state with the
core filled and the virtual orbitals empty. -/
theorem C122_state (hd : Division R core active) (hm : StrictMono active) (φ : Cfg →₀ K) (hφ : Within r φ) (h1 : pair φ φ = 1) (ne : K) (hne : ne ≠ 1)
    (hN : numberOp r (φ : Cfg → K) = ne • (φ : Cfg → K)) (u : ℕ → ℕ → K) (V : ℕ → ℕ → ℕ → ℕ → K) (hu : ∀ a b, u a b = u b a)
    (hV : ∀ a b c d, V a b c d = V c d a b) (hV' : ∀ a b c d, V a b c d = V b a d c) (nuc : K) :
    observable (k2 (core1e u V active core) (fun a b c d => V (active a) (active b) (active c) (active d)) ne) (rdm2 (evState φ)) + coreEnergy u V core nuc
      = pair (embF core active φ) (secondQ (r := R) (fun a b => u a.val b.val) (fun a b c d => V a.val b.val c.val d.val) (embF core active φ)) + nuc := by
  have hD : (fun i k j l => e2 (evState (embF core active φ)) (active i) (active k) (active l) (active j)) = rdm2 (evState φ) := by
    funext i k j l
    show pair (embF core active φ) ((cre (active i) : Oper K) ((cre (active k) : Oper K) ((ann (active l) : Oper K) ((ann (active j) : Oper K) (embF core active φ))))) = _
    rw [embF_coe, ann_emb hm hd.nodup hd.disj, ann_emb hm hd.nodup hd.disj, cre_emb hm hd.nodup hd.disj, cre_emb hm hd.nodup hd.disj, pair_emb hd.inj hd.disj φ hφ]
    rfl
  rw [← hD]
  refine C122_functional (filled_embF hd φ hφ h1) hd ne hne (fun X => ?_) u V hu hV hV' nuc
  show pair _ (X ((actNumber active : Oper K) (embF core active φ))) = ne * pair _ (X (embF core active φ))
  have : (actNumber active : Oper K) (embF core active φ) = ne • (embF core active φ : Cfg → K) := by
    rw [embF_coe, ← map_smul, ← hN]
    unfold actNumber numberOp
    rw [LinearMap.sum_apply, LinearMap.sum_apply, map_sum]
    refine Finset.sum_congr rfl fun i _ => ?_
    show (cre (active i) : Oper K) ((ann (active i) : Oper K) (emb core active φ)) = emb core active ((cre i.val : Oper K) ((ann i.val : Oper K) φ))
    rw [ann_emb hm hd.nodup hd.disj, cre_emb hm hd.nodup hd.disj]
  rw [this, map_smul, pair_smul_right]

end
end Props
end HQCA
