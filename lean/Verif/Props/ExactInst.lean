import Verif.Model.ExactInst
import Verif.Props.ExactUnitary
import Mathlib.Analysis.Real.Pi.Bounds

/-!
# C128, C129: the whole exact one-qubit instruction
-/

namespace HQCA
namespace Props
open Exact Prim Real

/-! ### C128: the three angles -/

theorem testM_quat (m n g : ℝ) : testM (m + n) g (m - n) =
    quat (cos (g / 2) * cos m) (sin (g / 2) * sin n) (sin (g / 2) * cos n) (cos (g / 2) * sin m) := by
  have i2 : Complex.I ^ 2 = -1 := Complex.I_sq
  have h1 : cos m = cos ((m + n) / 2) * cos ((m - n) / 2) - sin ((m + n) / 2) * sin ((m - n) / 2) := by
    rw [← cos_add]; congr 1; ring
  have h2 : sin m = sin ((m + n) / 2) * cos ((m - n) / 2) + cos ((m + n) / 2) * sin ((m - n) / 2) := by
    rw [← sin_add]; congr 1; ring
  have h3 : cos n = cos ((m + n) / 2) * cos ((m - n) / 2) + sin ((m + n) / 2) * sin ((m - n) / 2) := by
    rw [← cos_sub]; congr 1; ring
  have h4 : sin n = sin ((m + n) / 2) * cos ((m - n) / 2) - cos ((m + n) / 2) * sin ((m - n) / 2) := by
    rw [← sin_sub]; congr 1; ring
  rw [h1, h2, h3, h4]
  unfold testM quat
  rw [mat2_mul, mat2_mul]
  generalize cos ((m + n) / 2) = c1
  generalize sin ((m + n) / 2) = s1
  generalize cos ((m - n) / 2) = c2
  generalize sin ((m - n) / 2) = s2
  generalize cos (g / 2) = c
  generalize sin (g / 2) = s
  congr 1 <;> push_cast <;> ring_nf <;> simp only [i2] <;> ring

theorem quat_entries (c x y z : ℝ) : (quat c x y z) false false = c - Complex.I * (z : ℂ) ∧ (quat c x y z) false true = -Complex.I * (x : ℂ) - (y : ℂ) ∧
    (quat c x y z) true false = -Complex.I * (x : ℂ) + (y : ℂ) ∧ (quat c x y z) true true = c + Complex.I * (z : ℂ) := by
  unfold quat mat2
  simp

theorem nsq_c (a b : ℝ) (w : ℂ) (h1 : w.re = a) (h2 : w.im = b) : ‖w‖ ^ 2 = a ^ 2 + b ^ 2 := by
  rw [← Complex.normSq_eq_norm_sq, Complex.normSq_apply, h1, h2]; ring

/-- The distance of two rotations. -/
theorem frob_quat (c x y z c' x' y' z' : ℝ) : frob (quat c x y z - quat c' x' y' z') =
    √(2 * ((c - c') ^ 2 + (x - x') ^ 2 + (y - y') ^ 2 + (z - z') ^ 2)) := by
  obtain ⟨a1, a2, a3, a4⟩ := quat_entries c x y z
  obtain ⟨b1, b2, b3, b4⟩ := quat_entries c' x' y' z'
  unfold frob
  simp only [Matrix.sub_apply, a1, a2, a3, a4, b1, b2, b3, b4]
  rw [nsq_c (c - c') (-(z - z')) _ (by simp) (by simp; ring), nsq_c (-(y - y')) (-(x - x')) _ (by simp; ring) (by simp; ring),
    nsq_c (y - y') (-(x - x')) _ (by simp) (by simp; ring), nsq_c (c - c') (z - z') _ (by simp) (by simp)]
  congr 1
  ring

theorem cos_arcsin_clamp (t k c : ℝ) (hk : 0 ≤ k) (h : k ^ 2 = c ^ 2 + t ^ 2) :
    k * sin (arcsin (clampDiv (2 * t) (2 * k))) = t ∧ k * cos (arcsin (clampDiv (2 * t) (2 * k))) = |c| := by
  unfold clampDiv
  rcases hk.lt_or_eq with hk | hk
  · rw [if_neg (by linarith)]
    have e : 2 * t / (2 * k) = t / k := by field_simp
    have ht : |t| ≤ k := by
      apply abs_le_of_sq_le_sq _ hk.le
      nlinarith [sq_nonneg c]
    have b1 : t / k ≤ 1 := by rw [div_le_one hk]; exact (abs_le.mp ht).2
    have b2 : -1 ≤ t / k := by rw [le_div_iff₀ hk]; linarith [(abs_le.mp ht).1]
    rw [e, min_eq_right b1, max_eq_right b2, sin_arcsin b2 b1, cos_arcsin]
    refine ⟨by field_simp, ?_⟩
    have : 1 - (t / k) ^ 2 = (|c| / k) ^ 2 := by
      rw [div_pow, div_pow, sq_abs]
      field_simp
      linarith
    rw [this, sqrt_sq (by positivity)]
    field_simp
  · subst hk
    have h1 : t = 0 := by nlinarith [sq_nonneg c, sq_nonneg t]
    have h2 : c = 0 := by nlinarith [sq_nonneg c, sq_nonneg t]
    subst h1 h2
    simp

theorem arccos_clamp (y x k : ℝ) (h : k ^ 2 = x ^ 2 + y ^ 2) :
    k * cos (arccos (clampDiv (2 * y) (2 * k))) = y ∧ |k| * sin (arccos (clampDiv (2 * y) (2 * k))) = |x| := by
  unfold clampDiv
  by_cases hk : k = 0
  · subst hk
    have h1 : x = 0 := by nlinarith [sq_nonneg x, sq_nonneg y]
    have h2 : y = 0 := by nlinarith [sq_nonneg x, sq_nonneg y]
    subst h1 h2
    simp
  · rw [if_neg (by simpa using hk)]
    have hk' : 0 < |k| := abs_pos.mpr hk
    have e : 2 * y / (2 * k) = y / k := by field_simp
    have hy : |y / k| ≤ 1 := by
      rw [abs_div, div_le_one hk']
      exact sq_le_sq.mp (by nlinarith [sq_nonneg x])
    obtain ⟨b2, b1⟩ := abs_le.mp hy
    rw [e, min_eq_right b1, max_eq_right b2, cos_arccos b2 b1, sin_arccos]
    refine ⟨by field_simp, ?_⟩
    have : 1 - (y / k) ^ 2 = (|x| / |k|) ^ 2 := by
      rw [div_pow, div_pow, sq_abs, sq_abs]
      field_simp
      linarith
    rw [this, sqrt_sq (by positivity)]
    field_simp

/-- The rotation tried: the right one except for the sign of the cosine and of the first component. -/
theorem trial_quat (c x y z g : ℝ) (hg : cos (g / 2) ^ 2 = c ^ 2 + z ^ 2) (hg0 : 0 ≤ cos (g / 2)) (h1 : c ^ 2 + x ^ 2 + y ^ 2 + z ^ 2 = 1) :
    testM (trial (quat c x y z) g).1 (trial (quat c x y z) g).2.1 (trial (quat c x y z) g).2.2 =
      quat |c| (sin (g / 2) * sin (arccos (clampDiv (2 * y) (2 * sin (g / 2))))) y z ∧
    |sin (g / 2)| * sin (arccos (clampDiv (2 * y) (2 * sin (g / 2)))) = |x| := by
  obtain ⟨a1, a2, a3, a4⟩ := quat_entries c x y z
  have hs : sin (g / 2) ^ 2 = x ^ 2 + y ^ 2 := by have := sin_sq_add_cos_sq (g / 2); linarith
  have e1 : -(Complex.I * ((quat c x y z) true true - (quat c x y z) false false)).re = 2 * z := by
    rw [a1, a4]; simp; ring
  have e2 : ((quat c x y z) true false - (quat c x y z) false true).re = 2 * y := by
    rw [a2, a3]; simp; ring
  obtain ⟨p1, p2⟩ := cos_arcsin_clamp z (cos (g / 2)) c hg0 hg
  obtain ⟨q1, q2⟩ := arccos_clamp y x (sin (g / 2)) hs
  refine ⟨?_, q2⟩
  unfold trial
  simp only [e1, e2]
  rw [testM_quat, p1, p2, q1]

theorem rot_unit (v : PL → ℝ) (s : ℝ) (h : len v ≠ 0) : cos (len v * s) ^ 2 + (sin (len v * s) / len v * v .X) ^ 2 +
    (sin (len v * s) / len v * v .Y) ^ 2 + (sin (len v * s) / len v * v .Z) ^ 2 = 1 := by
  have q := len_sq v
  have hS := sin_sq_add_cos_sq (len v * s)
  have : (sin (len v * s) / len v * v .X) ^ 2 + (sin (len v * s) / len v * v .Y) ^ 2 + (sin (len v * s) / len v * v .Z) ^ 2
      = sin (len v * s) ^ 2 := by
    have : (sin (len v * s) / len v * v .X) ^ 2 + (sin (len v * s) / len v * v .Y) ^ 2 + (sin (len v * s) / len v * v .Z) ^ 2
      = sin (len v * s) ^ 2 / len v ^ 2 * (v .X ^ 2 + v .Y ^ 2 + v .Z ^ 2) := by ring
    rw [this, ← q]
    field_simp
  linarith

/-- What the search does, for a unit quaternion. -/
theorem solve_quat (v : PL → ℝ) (s c x y z : ℝ) (hq : rotM v s = quat c x y z) (h1 : c ^ 2 + x ^ 2 + y ^ 2 + z ^ 2 = 1) :
    (0 ≤ c → ∃ t, solve v s = some t ∧ frob (testM t.1 t.2.1 t.2.2 - rotM v s) ≤ 1e-10) ∧ (c < -4e-7 → solve v s = none) := by
  obtain ⟨a1, _⟩ := quat_entries c x y z
  have hn : ‖(quat c x y z) false false‖ ^ 2 = c ^ 2 + z ^ 2 := by
    rw [a1, nsq_c c (-z) _ (by simp) (by simp)]; ring
  have hle : ‖(quat c x y z) false false‖ ≤ 1 := by
    have h0 := norm_nonneg ((quat c x y z) false false)
    nlinarith [sq_nonneg x, sq_nonneg y]
  set k := ‖(quat c x y z) false false‖ with hk
  have hk0 : 0 ≤ k := norm_nonneg _
  set g := 2 * arccos (max (-1) (min k 1)) with hg
  have hg2 : g / 2 = arccos k := by
    rw [hg, min_eq_left hle, max_eq_right (by linarith)]; ring
  have hcos : cos (g / 2) = k := by rw [hg2, cos_arccos (by linarith) hle]
  have hsin : 0 ≤ sin (g / 2) := by rw [hg2]; rw [sin_arccos]; exact sqrt_nonneg _
  have hcos' : cos (g * -1 / 2) = k := by rw [show g * -1 / 2 = -(g / 2) by ring, cos_neg, hcos]
  have hsin' : sin (g * -1 / 2) = -sin (g / 2) := by rw [show g * -1 / 2 = -(g / 2) by ring, sin_neg]
  obtain ⟨t1, t2⟩ := trial_quat c x y z g (by rw [hcos, hn]) (by rw [hcos]; exact hk0) h1
  obtain ⟨u1, u2⟩ := trial_quat c x y z (g * -1) (by rw [hcos', hn]) (by rw [hcos']; exact hk0) h1
  rw [abs_of_nonneg hsin] at t2
  rw [hsin', abs_neg, abs_of_nonneg hsin] at u2
  rw [t2] at t1
  have u3 : sin (g * -1 / 2) * sin (arccos (clampDiv (2 * y) (2 * sin (g * -1 / 2)))) = -|x| := by
    rw [hsin', neg_mul, u2]
  rw [u3] at u1
  have hsolve : solve v s = if frob ((if frob (quat |c| |x| y z - quat c x y z) > 1e-10 then quat |c| (-|x|) y z else quat |c| |x| y z) - quat c x y z) > 1e-6
      then none else some (if frob (quat |c| |x| y z - quat c x y z) > 1e-10 then trial (quat c x y z) (g * -1) else trial (quat c x y z) g) := by
    unfold solve
    simp only [hq, ← hk, ← hg]
    rw [t1]
    split_ifs with i1 i2 i3 i3 <;> simp_all
  constructor
  · intro hc
    rw [hsolve, hq]
    by_cases i1 : frob (quat |c| |x| y z - quat c x y z) > 1e-10
    · have hx : x < 0 := by
        by_contra hx
        rw [abs_of_nonneg hc, abs_of_nonneg (not_lt.mp hx), sub_self] at i1
        have : frob (0 : M2 ℂ) = 0 := by simp [frob]
        rw [this] at i1
        norm_num at i1
      have e : quat |c| (-|x|) y z - quat c x y z = 0 := by rw [abs_of_nonneg hc, abs_of_neg hx, neg_neg, sub_self]
      have z0 : frob (0 : M2 ℂ) = 0 := by simp [frob]
      rw [if_pos i1, if_pos i1, e, z0, if_neg (by norm_num)]
      refine ⟨_, rfl, ?_⟩
      rw [u1, e, z0]
      norm_num
    · rw [if_neg i1, if_neg i1, if_neg (by push Not at i1 ⊢; exact i1.trans (by norm_num))]
      refine ⟨_, rfl, ?_⟩
      rw [t1]
      exact not_lt.mp i1
  · intro hc
    have hbig : ∀ x', frob (quat |c| x' y z - quat c x y z) > 1e-6 := by
      intro x'
      rw [frob_quat, abs_of_neg (by linarith), gt_iff_lt]
      apply lt_sqrt_of_sq_lt
      have := sq_nonneg (x' - x)
      norm_num at hc ⊢
      nlinarith
    rw [hsolve, if_pos]
    split_ifs
    · exact hbig _
    · exact hbig _

/-- **C128.** Operators of length at least `1e-7` whose rotation angle (twice the length times the scale) has a half angle with nonnegative cosine are turned into three angles, whose
rotations give the exponential up to `1e-10`.  Missing: all others, `C128_exits`. -/
theorem C128_partial (v : PL → ℝ) (s : ℝ) (h : len v ≠ 0) (hc : 0 ≤ cos (len v * s)) :
    ∃ b g d U, solve v s = some (b, g, d) ∧ IsExp ((-Complex.I * s) • spin v) (site 0 U) ∧ frob (testM b g d - U) ≤ 1e-10 := by
  obtain ⟨⟨b, g, d⟩, h1, h2⟩ := (solve_quat v s _ _ _ _ (rotM_quat v s) (rot_unit v s h)).1 hc
  exact ⟨b, g, d, _, h1, rot_isExp v s, h2⟩

/-- **C128 fails** otherwise: a negative cosine (below `-4e-7`, the tolerance of the test) ends the program. -/
theorem C128_exits (v : PL → ℝ) (s : ℝ) (h : len v ≠ 0) (hc : cos (len v * s) < -4e-7) : solve v s = none :=
  (solve_quat v s _ _ _ _ (rotM_quat v s) (rot_unit v s h)).2 hc

/-- A rotation about `Y` with scale one is solved; with scale `π` it is not. -/
example : (∃ t, solve (fun p => if p = .Y then 1 else 0) 1 = some t) ∧ solve (fun p => if p = .Y then 1 else 0) π = none := by
  have hl : len (fun p => if p = PL.Y then 1 else 0) = 1 := by simp [len]
  constructor
  · obtain ⟨b, g, d, _, h, _⟩ := C128_partial (fun p => if p = PL.Y then 1 else 0) 1 (by rw [hl]; norm_num)
      (by rw [hl, one_mul]; exact cos_one_pos.le)
    exact ⟨_, h⟩
  · refine C128_exits _ _ (by rw [hl]; norm_num) ?_
    rw [hl, one_mul, cos_pi]
    norm_num

/-! ### C129: the whole instruction -/

/-- The terms the instruction regards. -/
def Regarded (l : List (PL × ℂ)) : Prop := ∀ t ∈ l, t.1 ≠ .I ∧ 1e-10 ≤ ‖t.2‖

/-- `U` is the product of the exponentials of `-i s A` for the operators of the list, the first one acting first. -/
def IsProd : List (List (PL × ℂ)) → Oper ℂ → Prop
  | [], U => U = 1
  | g :: L, U => ∃ E V, IsExp (-Complex.I • spin (vals g)) E ∧ IsProd L V ∧ U = V * E

theorem addTerm_fresh (op : List (PL × ℂ)) (t : PL × ℂ) (h : ∀ u ∈ op, u.1 ≠ t.1) : addTerm op t = op ++ [t] := by
  unfold addTerm
  rw [if_neg]
  rw [List.any_eq_true]
  rintro ⟨u, hu, e⟩
  exact h u hu (by simpa using e)

/-- Letters not counted yet are joined to the operator under construction. -/
theorem fold_fresh (l : List (PL × ℂ)) : ∀ st : Grp, Regarded l → (l.map (·.1)).Nodup → (∀ t ∈ l, st.cnt t.1 = 0) → (∀ p, st.cnt p ≤ 1) →
    (∀ u ∈ st.new, ∀ t ∈ l, u.1 ≠ t.1) →
    l.foldl grpStep st = ⟨fun p => st.cnt p + if p ∈ l.map (·.1) then 1 else 0, st.new ++ l, st.out⟩ := by
  induction l with
  | nil => intro st _ _ _ _ _; simp
  | cons t l ih =>
    intro st hR hN hc h1 hf
    obtain ⟨hI, hn⟩ := hR t (by simp)
    rw [List.map_cons, List.nodup_cons] at hN
    have ht := hc t (by simp)
    have step : grpStep st t = ⟨Function.update st.cnt t.1 1, st.new ++ [t], st.out⟩ := by
      unfold grpStep
      rw [if_neg (not_lt.mpr hn)]
      simp only [if_neg hI, ht, zero_add]
      rw [if_neg, addTerm_fresh _ _ (fun u hu => hf u hu t (by simp))]
      have : ∀ p, Function.update st.cnt t.1 1 p ≤ 1 := by
        intro p
        rw [Function.update_apply]
        split_ifs
        · exact le_rfl
        · exact h1 p
      have a := this .Z; have b := this .X; have c := this .Y
      omega
    rw [List.foldl_cons, step, ih _ (fun u hu => hR u (by simp [hu])) hN.2]
    · simp only [List.append_assoc, List.singleton_append, Grp.mk.injEq, and_true]
      funext p
      rw [Function.update_apply]
      by_cases hp : p = t.1
      · subst hp
        rw [if_pos rfl, if_neg hN.1, if_pos (by simp), ht]
      · rw [if_neg hp]
        congr 1
        by_cases hm : p ∈ l.map (·.1)
        · rw [if_pos hm, if_pos (by rw [List.map_cons]; exact List.mem_cons_of_mem _ hm)]
        · rw [if_neg hm, if_neg (fun h => by rw [List.map_cons] at h; exact (List.mem_cons.mp h).elim hp hm)]
    · intro u hu
      have : u.1 ≠ t.1 := fun e => hN.1 (by rw [← e]; exact List.mem_map_of_mem hu)
      show Function.update st.cnt t.1 1 u.1 = 0
      rw [Function.update_of_ne this]
      exact hc u (by simp [hu])
    · intro p
      show Function.update st.cnt t.1 1 p ≤ 1
      rw [Function.update_apply]
      split_ifs
      · exact le_rfl
      · exact h1 p
    · intro u hu w hw
      rcases List.mem_append.mp hu with hu | hu
      · exact hf u hu w (by simp [hw])
      · rw [List.mem_singleton] at hu
        subst hu
        exact fun e => hN.1 (by rw [e]; exact List.mem_map_of_mem hw)

/-- One operator: one rotation. -/
theorem groups_one (l : List (PL × ℂ)) (hR : Regarded l) (hN : (l.map (·.1)).Nodup) : groups l = [l] := by
  unfold groups
  rw [fold_fresh l _ hR hN (fun _ _ => rfl) (fun _ => by simp) (fun u hu => by simp at hu)]
  simp

/-- Two operators, the first letter of the second also in the first: two rotations. -/
theorem groups_two (l l' : List (PL × ℂ)) (t : PL × ℂ) (hR : Regarded l) (hN : (l.map (·.1)).Nodup) (hR' : Regarded (t :: l'))
    (hN' : ((t :: l').map (·.1)).Nodup) (ht : t.1 ∈ l.map (·.1)) : groups (l ++ t :: l') = [l, t :: l'] := by
  unfold groups
  rw [List.foldl_append, fold_fresh l _ hR hN (fun _ _ => rfl) (fun _ => by simp) (fun u hu => by simp at hu), List.foldl_cons]
  obtain ⟨hI, hn⟩ := hR' t (by simp)
  rw [List.map_cons, List.nodup_cons] at hN'
  have step : grpStep ⟨fun p => 0 + if p ∈ l.map (·.1) then 1 else 0, [] ++ l, []⟩ t = ⟨fun _ => 0, [t], [l]⟩ := by
    unfold grpStep
    rw [if_neg (not_lt.mpr hn)]
    simp only [if_neg hI, if_pos ht]
    rw [if_pos]
    · simp [addTerm]
    · have : Function.update (fun p => 0 + if p ∈ l.map (·.1) then 1 else 0) t.1 (0 + 1 + 1) t.1 = 2 := by simp
      rcases h : t.1 with _ | _ | _ | _
      · exact absurd h hI
      all_goals rw [h] at this; simp [this]
  rw [step, fold_fresh l' _ (fun u hu => hR' u (by simp [hu])) hN'.2 (fun _ _ => rfl) (fun _ => by simp)
    (fun u hu w hw e => by
      rw [List.mem_singleton] at hu
      subst hu
      exact hN'.1 (by rw [e]; exact List.mem_map_of_mem hw))]
  simp

/-- Combining all operators gives the exponent of the product. -/
theorem combineAll_exp : ∀ (L : List (List (PL × ℂ))) (op : List (PL × ℂ)), combineAll L = some op →
    (∀ R, R ≠ [] → R <:+ L → R.length < L.length → ∀ o, combineAll R = some o → len (vals o) = 0 ∨ 1e-14 ≤ len (vals o)) →
    (∀ g ∈ L, len (vals g) = 0 ∨ 1e-14 ≤ len (vals g)) → ∃ U, IsProd L U ∧ IsExp (-Complex.I • spin (vals op)) U
  | [], op, h, _, _ => by cases h
  | [g], op, h, _, _ => by
    cases h
    have := rot_isExp (vals g) 1
    rw [Complex.ofReal_one, mul_one] at this
    exact ⟨_, ⟨_, 1, this, rfl, (one_mul _).symm⟩, this⟩
  | g :: g' :: L, op, h, hr, hl => by
    rw [combineAll] at h
    · obtain ⟨op2, h2, h3⟩ := Option.bind_eq_some_iff.mp h
      obtain ⟨V, v1, v2⟩ := combineAll_exp (g' :: L) op2 h2 (fun R hR hs hlt => hr R hR (hs.trans (List.suffix_cons _ _)) (by simp at hlt ⊢; omega))
        (fun x hx => hl x (by simp at hx ⊢; tauto))
      obtain ⟨E1, E2, e1, e2, e3⟩ := C81_combine g op2 op 1 1 h3 (hl g (by simp))
        (hr (g' :: L) (by simp) (List.suffix_cons _ _) (by simp) op2 h2)
      rw [Complex.ofReal_one, mul_one] at e1 e2
      rw [isExp_unique e2 v2] at e3
      exact ⟨_, ⟨E1, V, e1, v1, rfl⟩, e3⟩
    · simp

/-- The gates of one operator. -/
theorem rotation_gates' (l : List (PL × ℂ)) (s : ℝ) (hR : Regarded l) (hl : 1e-7 ≤ len (vals l)) (hc : 0 ≤ cos (len (vals l) * s)) :
    ∃ b g d U, rotation l s = some [(b, PL.Z), (g, PL.Y), (d, PL.Z)] ∧ IsExp ((-Complex.I * s) • spin (vals l)) (site 0 U) ∧ frob (testM b g d - U) ≤ 1e-10 := by
  obtain ⟨b, g, d, U, h1, h2, h3⟩ := C128_partial (vals l) s (by intro h; rw [h] at hl; norm_num at hl) hc
  refine ⟨b, g, d, U, ?_, h2, h3⟩
  have hi : vals l .I = 0 := by
    unfold vals
    rw [List.filter_eq_nil_iff.mpr fun t ht => by simpa using (hR t ht).1]
    rfl
  have hs : ¬ |vals l .X * vals l .X + vals l .Y * vals l .Y + vals l .Z * vals l .Z| < 1e-14 := by
    have q := len_sq (vals l)
    rw [show vals l .X * vals l .X + vals l .Y * vals l .Y + vals l .Z * vals l .Z = len (vals l) ^ 2 by rw [q]; ring, abs_of_nonneg (sq_nonneg _), not_lt]
    norm_num at hl ⊢
    nlinarith
  unfold rotation
  simp only
  rw [if_neg hs, h1, hi, if_neg (by norm_num)]
  rfl

theorem rotation_gates (l : List (PL × ℂ)) (hR : Regarded l) (hl : 1e-7 ≤ len (vals l)) (hc : 0 ≤ cos (len (vals l))) :
    ∃ b g d U, rotation l 1 = some [(b, PL.Z), (g, PL.Y), (d, PL.Z)] ∧ IsExp (-Complex.I • spin (vals l)) (site 0 U) ∧ frob (testM b g d - U) ≤ 1e-10 := by
  have := rotation_gates' l 1 hR hl (by rw [mul_one]; exact hc)
  rw [Complex.ofReal_one, mul_one] at this
  exact this

/-- **C129, one operator.** A list without a repeated letter is performed as the exponential of the sum. -/
theorem C129_one_partial (l : List (PL × ℂ)) (hR : Regarded l) (hN : (l.map (·.1)).Nodup) (hl : 1e-7 ≤ len (vals l)) (hc : 0 ≤ cos (len (vals l))) :
    ∃ b g d U, genericOp l = some [(b, PL.Z), (g, PL.Y), (d, PL.Z)] ∧ IsExp (-Complex.I • spin (vals l)) (site 0 U) ∧ frob (testM b g d - U) ≤ 1e-10 := by
  obtain ⟨b, g, d, U, h1, h2, h3⟩ := rotation_gates l hR hl hc
  refine ⟨b, g, d, U, ?_, h2, h3⟩
  unfold genericOp
  rw [groups_one l hR hN]
  simp [emitAll, h1]

/-- **C129, two operators.** If the second begins with a letter of the first, the two exponentials are performed one after the other.  Missing: three operators
(`C129_three_fails`), and angles that are not found (`C128_exits`). -/
theorem C129_two_partial (l l' : List (PL × ℂ)) (hR : Regarded l) (hN : (l.map (·.1)).Nodup) (hR' : Regarded l') (hN' : (l'.map (·.1)).Nodup)
    (hrep : ∃ t, l'.head? = some t ∧ t.1 ∈ l.map (·.1)) (hl : 1e-7 ≤ len (vals l)) (hc : 0 ≤ cos (len (vals l)))
    (hl' : 1e-7 ≤ len (vals l')) (hc' : 0 ≤ cos (len (vals l'))) :
    ∃ b g d U b' g' d' U', genericOp (l ++ l') = some [(b, PL.Z), (g, PL.Y), (d, PL.Z), (b', PL.Z), (g', PL.Y), (d', PL.Z)] ∧
      IsExp (-Complex.I • spin (vals l)) (site 0 U) ∧ frob (testM b g d - U) ≤ 1e-10 ∧
      IsExp (-Complex.I • spin (vals l')) (site 0 U') ∧ frob (testM b' g' d' - U') ≤ 1e-10 := by
  obtain ⟨b, g, d, U, h1, h2, h3⟩ := rotation_gates l hR hl hc
  obtain ⟨b', g', d', U', h1', h2', h3'⟩ := rotation_gates l' hR' hl' hc'
  refine ⟨b, g, d, U, b', g', d', U', ?_, h2, h3, h2', h3'⟩
  obtain ⟨t, e, ht⟩ := hrep
  cases l' with
  | nil => cases e
  | cons t' l' =>
    cases e
    unfold genericOp
    rw [groups_two l l' t hR hN hR' hN' ht]
    simp [emitAll, h1, h1']

/-- **C129, the simple option.** The one operator kept is the exponent of the product of the two exponentials. -/
theorem C129_simple_partial (l l' op : List (PL × ℂ)) (gs : List (ℝ × PL)) (hR : Regarded l) (hN : (l.map (·.1)).Nodup) (hR' : Regarded l')
    (hN' : (l'.map (·.1)).Nodup) (hrep : ∃ t, l'.head? = some t ∧ t.1 ∈ l.map (·.1)) (hl : 1e-14 ≤ len (vals l)) (hl' : 1e-14 ≤ len (vals l'))
    (h : simpleOp (l ++ l') = some (op, gs)) :
    ∃ U, IsProd [l, l'] U ∧ IsExp (-Complex.I • spin (vals op)) U ∧ rotation op 1 = some gs := by
  obtain ⟨t, e, ht⟩ := hrep
  cases l' with
  | nil => cases e
  | cons t' l' =>
    cases e
    unfold simpleOp at h
    rw [groups_two l l' t hR hN hR' hN' ht] at h
    obtain ⟨o, h1, h2⟩ := Option.bind_eq_some_iff.mp h
    obtain ⟨g, h3, h4⟩ := Option.map_eq_some_iff.mp h2
    cases h4
    obtain ⟨U, u1, u2⟩ := combineAll_exp _ _ h1 (by
      intro R hR hs hlt o ho
      have : R = [t :: l'] := by
        rcases List.suffix_cons_iff.mp hs with h | h
        · rw [h] at hlt; simp at hlt
        · rcases List.suffix_cons_iff.mp h with h | h
          · exact h
          · exact absurd (List.suffix_nil.mp h) hR
      subst this
      cases ho
      exact Or.inr hl') (by
      intro g hg
      simp only [List.mem_cons, List.not_mem_nil, or_false] at hg
      rcases hg with rfl | rfl
      · exact Or.inr hl
      · exact Or.inr hl')
    exact ⟨U, u1, u2, h3⟩

/-- **C129, propagation by `commute`** after one operator with imaginary coefficients: the exponential of the Hamiltonian times the scale is applied last. -/
theorem C129_commute_partial (op H : List (PL × ℂ)) (scaleH : ℝ) (gs : List (ℝ × PL)) (h : commuteH op H scaleH = some gs)
    (h1 : 1e-14 ≤ len (vals op)) (h2 : 1e-14 ≤ len (vals H)) :
    ∃ E1 E2 k, IsExp (-Complex.I • spin (vals op)) E1 ∧ IsExp ((-Complex.I * scaleH) • spin (vals H)) E2 ∧
      IsExp (-Complex.I • spin (vals k)) (E2 * E1) ∧ rotation k 1 = some gs := by
  obtain ⟨k, k1, k2⟩ := Option.bind_eq_some_iff.mp h
  obtain ⟨E1, E2, e1, e2, e3⟩ := C81_combine op H k 1 scaleH k1 (Or.inr h1) (Or.inr h2)
  rw [Complex.ofReal_one, mul_one] at e1
  exact ⟨E1, E2, k, e1, e2, e3, k2⟩

theorem combine_real (op1 op2 op3 : List (PL × ℂ)) (s1 s2 : ℝ) (h : combine op1 op2 s1 s2 = some op3) : ∃ x y z, op3 = ofVec x y z := by
  unfold combine at h
  simp only at h
  split_ifs at h
  all_goals exact ⟨_, _, _, (Option.some.inj h).symm⟩

/-- **C129 fails**, `commute`: after two or more operators the propagation always raises (the name `o`). -/
theorem C129_commute_raises (l H op : List (PL × ℂ)) (scaleH : ℝ) (g g' : List (PL × ℂ)) (L : List (List (PL × ℂ))) (hg : groups l = g :: g' :: L)
    (gs : List (ℝ × PL)) (h : simpleOp l = some (op, gs)) : commuteH op H scaleH = none := by
  unfold simpleOp at h
  rw [hg] at h
  obtain ⟨o, h1, h2⟩ := Option.bind_eq_some_iff.mp h
  obtain ⟨_, _, h4⟩ := Option.map_eq_some_iff.mp h2
  cases h4
  rw [combineAll] at h1
  · obtain ⟨op2, _, h3⟩ := Option.bind_eq_some_iff.mp h1
    obtain ⟨x, y, z, rfl⟩ := combine_real _ _ _ _ _ h3
    unfold commuteH
    rw [C81_real_raises _ _ _ _ (.X, (x : ℂ)) (by simp [ofVec]) (by simp)]
    rfl
  · simp

/-- The third operator is joined to the second, since the counters forget the letter that began the second. -/
theorem groups_three (a b c d : ℂ) (ha : 1e-10 ≤ ‖a‖) (hb : 1e-10 ≤ ‖b‖) (hc : 1e-10 ≤ ‖c‖) (hd : 1e-10 ≤ ‖d‖) :
    groups [(.X, a), (.X, b), (.Y, d), (.X, c)] = [[(.X, a)], [(.X, b + c), (.Y, d)]] := by
  have s1 : grpStep ⟨fun _ => 0, [], []⟩ (.X, a) = ⟨Function.update (fun _ => 0) .X 1, [(.X, a)], []⟩ := by
    unfold grpStep
    rw [if_neg (not_lt.mpr ha)]
    simp [addTerm]
  have s2 : grpStep ⟨Function.update (fun _ => 0) .X 1, [(.X, a)], []⟩ (.X, b) = ⟨fun _ => 0, [(.X, b)], [[(.X, a)]]⟩ := by
    unfold grpStep
    rw [if_neg (not_lt.mpr hb)]
    simp [addTerm]
  have s3 : grpStep ⟨fun _ => 0, [(.X, b)], [[(.X, a)]]⟩ (.Y, d) = ⟨Function.update (fun _ => 0) .Y 1, [(.X, b), (.Y, d)], [[(.X, a)]]⟩ := by
    unfold grpStep
    rw [if_neg (not_lt.mpr hd)]
    simp [addTerm]
  have s4 : grpStep ⟨Function.update (fun _ => 0) .Y 1, [(.X, b), (.Y, d)], [[(.X, a)]]⟩ (.X, c) =
      ⟨Function.update (Function.update (fun _ => 0) .Y 1) .X 1, [(.X, b + c), (.Y, d)], [[(.X, a)]]⟩ := by
    unfold grpStep
    rw [if_neg (not_lt.mpr hc)]
    simp [addTerm]
  unfold groups
  simp only [List.foldl_cons, List.foldl_nil, s1, s2, s3, s4]
  rfl

theorem termVal_I (x : ℝ) (hx : 1e-12 ≤ |x|) : termVal (Complex.I * x) = x := by
  unfold termVal
  rw [if_neg (by simpa using hx)]
  simp

/-- **C129 fails**, three operators: the rotations about `X`, about an axis in the plane of `X` and `Y`, and about `X` again are not performed one after the other. -/
theorem C129_three_fails : ∃ g1 g2 g3 : List (PL × ℂ), Regarded g1 ∧ Regarded g2 ∧ Regarded g3 ∧ (g1.map (·.1)).Nodup ∧ (g2.map (·.1)).Nodup ∧
    (g3.map (·.1)).Nodup ∧ g2.head?.map (·.1) = g1.head?.map (·.1) ∧ g3.head?.map (·.1) = g2.head?.map (·.1) ∧
    ∀ U V, IsProd (groups (g1 ++ g2 ++ g3)) U → IsProd [g1, g2, g3] V → ¬ UpToPhase U V := by
  have hpi := pi_pos
  have hp2 : (1 : ℝ) ≤ π / 2 := one_le_pi_div_two
  have h3 : (1 : ℝ) < √3 := by rw [lt_sqrt (by norm_num)]; norm_num
  have h3' : √3 < 2 := by rw [sqrt_lt' (by norm_num)]; norm_num
  have hy : 1 ≤ √3 * (π / 2) := by nlinarith
  have nI : ∀ x : ℝ, ‖Complex.I * (x : ℂ)‖ = |x| := by intro x; simp
  have r1 : ∀ (p : PL) (x : ℝ), p ≠ .I → 1 ≤ |x| → (p, Complex.I * (x : ℂ)).1 ≠ .I ∧ (1e-10 : ℝ) ≤ ‖(p, Complex.I * (x : ℂ)).2‖ := by
    intro p x hp hx
    exact ⟨hp, by show _ ≤ ‖Complex.I * (x : ℂ)‖; rw [nI]; norm_num; linarith⟩
  have ax : (1 : ℝ) ≤ |π| := by rw [abs_of_pos hpi]; linarith
  have bx : (1 : ℝ) ≤ |-(π / 2)| := by rw [abs_neg, abs_of_pos (by linarith)]; exact hp2
  have cx : (1 : ℝ) ≤ |π / 2| := by rw [abs_of_pos (by linarith)]; exact hp2
  have yx : (1 : ℝ) ≤ |√3 * (π / 2)| := by rw [abs_of_pos (by linarith)]; exact hy
  refine ⟨[(.X, Complex.I * (π : ℝ))], [(.X, Complex.I * (-(π / 2) : ℝ)), (.Y, Complex.I * (√3 * (π / 2) : ℝ))], [(.X, Complex.I * (π / 2 : ℝ))],
    ?_, ?_, ?_, by decide, by decide, by decide, rfl, rfl, ?_⟩
  · intro t ht
    rw [List.mem_singleton] at ht
    subst ht
    exact r1 _ _ (by decide) ax
  · intro t ht
    simp only [List.mem_cons, List.not_mem_nil, or_false] at ht
    rcases ht with rfl | rfl
    · exact r1 _ _ (by decide) bx
    · exact r1 _ _ (by decide) yx
  · intro t ht
    rw [List.mem_singleton] at ht
    subst ht
    exact r1 _ _ (by decide) cx
  · intro U V hU hV
    have hg : groups ([(PL.X, Complex.I * ((π : ℝ) : ℂ))] ++ [(.X, Complex.I * ((-(π / 2) : ℝ) : ℂ)), (.Y, Complex.I * ((√3 * (π / 2) : ℝ) : ℂ))] ++
        [(.X, Complex.I * ((π / 2 : ℝ) : ℂ))]) = [[(.X, Complex.I * ((π : ℝ) : ℂ))], [(.X, 0), (.Y, Complex.I * ((√3 * (π / 2) : ℝ) : ℂ))]] := by
      have := groups_three (Complex.I * ((π : ℝ) : ℂ)) (Complex.I * ((-(π / 2) : ℝ) : ℂ)) (Complex.I * ((π / 2 : ℝ) : ℂ)) (Complex.I * ((√3 * (π / 2) : ℝ) : ℂ))
        (r1 .X _ (by decide) ax).2 (r1 .X _ (by decide) bx).2 (r1 .X _ (by decide) cx).2 (r1 .Y _ (by decide) yx).2
      rw [show Complex.I * ((-(π / 2) : ℝ) : ℂ) + Complex.I * ((π / 2 : ℝ) : ℂ) = 0 by push_cast; ring] at this
      exact this
    rw [hg] at hU
    have tv : ∀ x : ℝ, 1 ≤ |x| → termVal (Complex.I * (x : ℂ)) = x := fun x hx => termVal_I x (by norm_num; linarith)
    have t0 : termVal 0 = 0 := by unfold termVal; simp
    have e1 : rotM (vals [(PL.X, Complex.I * ((π : ℝ) : ℂ))]) 1 = quat (-1) 0 0 0 := by
      have v1 : vals [(PL.X, Complex.I * ((π : ℝ) : ℂ))] = fun p => if p = .X then π else 0 := by
        funext p; cases p <;> simp [vals, tv π ax]
      have l1 : len (fun p => if p = PL.X then π else 0) = π := by
        unfold len; simp [sqrt_mul_self hpi.le]
      rw [v1, rotM_quat, l1, mul_one, cos_pi, sin_pi]
      simp
    have e2 : rotM (vals [(PL.X, Complex.I * ((-(π / 2) : ℝ) : ℂ)), (.Y, Complex.I * ((√3 * (π / 2) : ℝ) : ℂ))]) 1 = quat (-1) 0 0 0 := by
      have v1 : vals [(PL.X, Complex.I * ((-(π / 2) : ℝ) : ℂ)), (.Y, Complex.I * ((√3 * (π / 2) : ℝ) : ℂ))]
          = fun p => if p = .X then -(π / 2) else if p = .Y then √3 * (π / 2) else 0 := by
        have q1 := tv _ bx
        have q2 := tv _ yx
        funext p; cases p <;> simp only [vals, List.filter_cons, List.filter_nil] <;> simp only [reduceCtorEq, decide_false, decide_true, if_true, if_false, Bool.false_eq_true,
          List.map_cons, List.map_nil, List.sum_cons, List.sum_nil, q1, q2, add_zero]
      have l1 : len (fun p => if p = PL.X then -(π / 2) else if p = .Y then √3 * (π / 2) else 0) = π := by
        unfold len
        simp only [reduceCtorEq, if_true, if_false]
        rw [show -(π / 2) * -(π / 2) + √3 * (π / 2) * (√3 * (π / 2)) + 0 * 0 = π ^ 2 by
          have : √3 * √3 = 3 := mul_self_sqrt (by norm_num)
          linear_combination (π / 2) ^ 2 * this]
        exact sqrt_sq hpi.le
      rw [v1, rotM_quat, l1, mul_one, cos_pi, sin_pi]
      simp
    have e3 : rotM (vals [(PL.X, Complex.I * ((π / 2 : ℝ) : ℂ))]) 1 = quat 0 1 0 0 := by
      have v1 : vals [(PL.X, Complex.I * ((π / 2 : ℝ) : ℂ))] = fun p => if p = .X then π / 2 else 0 := by
        have q1 := tv _ cx
        funext p; cases p <;> simp only [vals, List.filter_cons, List.filter_nil] <;> simp only [reduceCtorEq, decide_false, decide_true, if_true, if_false, Bool.false_eq_true,
          List.map_cons, List.map_nil, List.sum_cons, List.sum_nil, q1, add_zero]
      have l1 : len (fun p => if p = PL.X then π / 2 else 0) = π / 2 := by
        unfold len
        simp only [reduceCtorEq, if_true, if_false, mul_zero, add_zero]
        exact sqrt_mul_self (by linarith)
      rw [v1, rotM_quat, l1, mul_one, cos_pi_div_two, sin_pi_div_two]
      simp only [reduceCtorEq, if_true, if_false, mul_zero]
      rw [one_div, inv_mul_cancel₀ (by linarith)]
    have e4 : rotM (vals [(PL.X, 0), (.Y, Complex.I * ((√3 * (π / 2) : ℝ) : ℂ))]) 1 = quat (cos (√3 * (π / 2))) 0 (sin (√3 * (π / 2))) 0 := by
      have v1 : vals [(PL.X, 0), (.Y, Complex.I * ((√3 * (π / 2) : ℝ) : ℂ))] = fun p => if p = .Y then √3 * (π / 2) else 0 := by
        have q2 := tv _ yx
        funext p; cases p <;> simp only [vals, List.filter_cons, List.filter_nil] <;> simp only [reduceCtorEq, decide_false, decide_true, if_true, if_false, Bool.false_eq_true,
          List.map_cons, List.map_nil, List.sum_cons, List.sum_nil, q2, t0, add_zero]
      have l1 : len (fun p => if p = PL.Y then √3 * (π / 2) else 0) = √3 * (π / 2) := by
        unfold len
        simp only [reduceCtorEq, if_true, if_false, mul_zero, add_zero, zero_add]
        exact sqrt_mul_self (by linarith)
      rw [v1, rotM_quat, l1, mul_one]
      simp only [reduceCtorEq, if_true, if_false, mul_zero]
      rw [div_mul_cancel₀ _ (by linarith)]
    have hex : ∀ g E, IsExp (-Complex.I • spin (vals g)) E → E = site 0 (rotM (vals g) 1) := by
      intro g E hE
      have := rot_isExp (vals g) 1
      rw [Complex.ofReal_one, mul_one] at this
      exact isExp_unique hE this
    obtain ⟨E1, U', x1, ⟨E4, U'', x4, rfl, rfl⟩, rfl⟩ := hU
    obtain ⟨F1, V', z1, ⟨F2, V'', z2, ⟨F3, V3, z3, rfl, rfl⟩, rfl⟩, rfl⟩ := hV
    rw [hex _ _ x1, hex _ _ x4, hex _ _ z1, hex _ _ z2, hex _ _ z3, e1, e2, e3, e4, one_mul, one_mul, ← site_mul, ← site_mul, ← site_mul, quat_mul, quat_mul, quat_mul]
    rintro ⟨c, _, hcU⟩
    have h := congrArg (fun A : Oper ℂ => A (ket fun _ => false) (fun _ => false)) hcU
    simp only [LinearMap.smul_apply, Pi.smul_apply, site_amp, (quat_entries _ _ _ _).1] at h
    have hneg : cos (√3 * (π / 2)) < 0 := cos_neg_of_pi_div_two_lt_of_lt (by nlinarith) (by nlinarith)
    generalize cos (√3 * (π / 2)) = C at h hneg
    simp at h
    linarith

/-- **C129, propagation by `rotation`**: the gates of the operator, then three rotations giving the exponential of the scaled Hamiltonian. -/
theorem C129_rotation_partial (l H : List (PL × ℂ)) (scaleH : ℝ) (hR : Regarded l) (hN : (l.map (·.1)).Nodup) (hl : 1e-7 ≤ len (vals l))
    (hc : 0 ≤ cos (len (vals l))) (hH : Regarded H) (hlH : 1e-7 ≤ len (vals H)) (hcH : 0 ≤ cos (len (vals H) * scaleH)) :
    ∃ b g d U b' g' d' U', instruction l false (some .rotation) H 1 scaleH =
        some [(b, PL.Z), (g, PL.Y), (d, PL.Z), (b', PL.Z), (g', PL.Y), (d', PL.Z)] ∧
      IsExp (-Complex.I • spin (vals l)) (site 0 U) ∧ frob (testM b g d - U) ≤ 1e-10 ∧
      IsExp ((-Complex.I * scaleH) • spin (vals H)) (site 0 U') ∧ frob (testM b' g' d' - U') ≤ 1e-10 := by
  obtain ⟨b, g, d, U, h1, h2, h3⟩ := C129_one_partial l hR hN hl hc
  obtain ⟨b', g', d', U', k1, k2, k3⟩ := rotation_gates' H scaleH hH hlH hcH
  refine ⟨b, g, d, U, b', g', d', U', ?_, h2, h3, k2, k3⟩
  unfold instruction rotateH
  simp [h1, k1]

/-- **C129 fails**, propagation: the default method raises for every Hamiltonian with a term; `commute` ends the program without the simple option, and raises with it as soon as
the list has two operators. -/
theorem C129_propagation_fails (l H : List (PL × ℂ)) (scaleH : ℝ) :
    (H ≠ [] → ∀ simple steps, 0 < steps → instruction l simple (some .trotter) H steps scaleH = none) ∧
    (∀ steps, instruction l false (some .commute) H steps scaleH = none) ∧
    (∀ steps, 2 ≤ (groups l).length → instruction l true (some .commute) H steps scaleH = none) := by
  refine ⟨?_, ?_, ?_⟩
  · intro hH simple steps hs
    unfold instruction trotterH
    rw [Option.bind_eq_none_iff]
    intro r _
    simp [hs, hH]
  · intro steps
    unfold instruction
    rw [Option.bind_eq_none_iff]
    intro r hr
    simp only [Bool.false_eq_true, if_false, Option.map_eq_some_iff] at hr
    obtain ⟨g, _, rfl⟩ := hr
    simp
  · intro steps h2
    unfold instruction
    rw [Option.bind_eq_none_iff]
    intro r hr
    simp only [if_true, Option.map_eq_some_iff] at hr
    obtain ⟨⟨op, gs⟩, hs, rfl⟩ := hr
    obtain ⟨g, g', L, hg⟩ : ∃ g g' L, groups l = g :: g' :: L := by
      match h : groups l with
      | [] => rw [h] at h2; simp at h2
      | [_] => rw [h] at h2; simp at h2
      | g :: g' :: L => exact ⟨g, g', L, rfl⟩
    simp [C129_commute_raises l H op scaleH g g' L hg gs hs]

/-- Two operators in the plane of `X` and `Y` that meet the conditions of `C129_two_partial`. -/
example : Regarded [(.X, Complex.I), (.Y, Complex.I)] ∧ ([(PL.X, Complex.I), (.Y, Complex.I)].map (·.1)).Nodup ∧
    1e-7 ≤ len (vals [(.X, Complex.I), (.Y, Complex.I)]) ∧ 0 ≤ cos (len (vals [(.X, Complex.I), (.Y, Complex.I)])) := by
  have t : termVal Complex.I = 1 := by
    unfold termVal; rw [if_neg (by simp; norm_num)]; simp
  have l : len (vals [(PL.X, Complex.I), (PL.Y, Complex.I)]) = √2 := by
    simp [len, vals, t]; norm_num
  have h2 : (1 : ℝ) ≤ √2 := Real.le_sqrt_of_sq_le (by norm_num)
  have h2' : √2 ≤ π / 2 := by
    have : √2 < 3 / 2 := by rw [sqrt_lt' (by norm_num)]; norm_num
    linarith [pi_gt_three]
  refine ⟨?_, by decide, by rw [l]; norm_num; linarith, by rw [l]; exact cos_nonneg_of_neg_pi_div_two_le_of_le (by linarith) h2'⟩
  intro t ht
  simp only [List.mem_cons, List.not_mem_nil, or_false] at ht
  rcases ht with rfl | rfl <;> exact ⟨by decide, by simp; norm_num⟩

end Props
end HQCA
