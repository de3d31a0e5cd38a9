import Verif.Props.NelderMead
import Verif.Model.GradDescent
import Mathlib.Algebra.Module.LinearMap.Defs
import Mathlib.Algebra.Module.Pi
import Mathlib.Algebra.BigOperators.Pi
import Mathlib.Tactic.Module
import Mathlib.Tactic.FieldSimp

/-!
# C123: the simplex optimizers have no preferred coordinates
-/

set_option linter.unusedSectionVars false
namespace HQCA.Props
open HQCA HQCA.NM
variable {F : Type} [Field F] [LinearOrder F] [IsStrictOrderedRing F] {n : ℕ}

/-- A change of coordinates: a linear map and a translation. -/
structure Chart (F : Type) [Field F] (n : ℕ) where
  L : (Fin (n + 1) → F) →ₗ[F] (Fin (n + 1) → F)
  v : Fin (n + 1) → F

/-- The new coordinates of a point. -/
def Chart.at (C : Chart F n) (x : Fin (n + 1) → F) : Fin (n + 1) → F := C.L x + C.v

/-- The simplex in the new coordinates; the values stay. -/
def Chart.simplex (C : Chart F n) (s : Simplex F n) : Simplex F n := ⟨fun i => C.at (s.x i), s.f⟩

/-- Lengths are kept. -/
def Chart.Rigid (C : Chart F n) : Prop := ∀ w, ∑ k, (C.L w k) ^ 2 = ∑ k, (w k) ^ 2

theorem at_move (C : Chart F n) (M X Y : Fin (n + 1) → F) (a : F) : C.at (M + a • (X - Y)) = C.at M + a • (C.at X - C.at Y) := by
  unfold Chart.at
  simp only [map_add, map_smul, map_sub]
  module

theorem at_move' (C : Chart F n) (M X Y : Fin (n + 1) → F) (a : F) : C.at (M - a • (X - Y)) = C.at M - a • (C.at X - C.at Y) := by
  unfold Chart.at
  simp only [map_sub, map_smul]
  module

theorem centroid_eq (s : Simplex F n) : centroid s = (1 / ((n : F) + 1)) • ∑ i : Fin (n + 1), s.x i.castSucc := by
  funext k
  unfold centroid
  rw [Pi.smul_apply, Finset.sum_apply, smul_eq_mul, mul_comm]

theorem centroid_chart (C : Chart F n) (s : Simplex F n) : centroid (C.simplex s) = C.at (centroid s) := by
  have h : ((n : F) + 1) ≠ 0 := by positivity
  rw [centroid_eq, centroid_eq]
  show (1 / ((n : F) + 1)) • ∑ i : Fin (n + 1), (C.L (s.x i.castSucc) + C.v) = C.L _ + C.v
  rw [Finset.sum_add_distrib, map_smul, map_sum, smul_add, Finset.sum_const, Finset.card_univ, Fintype.card_fin]
  congr 1
  rw [← Nat.cast_smul_eq_nsmul F, smul_smul]
  push_cast
  rw [one_div, inv_mul_cancel₀ h, one_smul]

theorem order_chart (C : Chart F n) (s : Simplex F n) : orderPoints (C.simplex s) = C.simplex (orderPoints s) := rfl

theorem replace_chart (C : Chart F n) (s : Simplex F n) (x : Fin (n + 1) → F) (fx : F) : replaceLast (C.simplex s) (C.at x) fx = C.simplex (replaceLast s x fx) := by
  unfold replaceLast Chart.simplex
  congr 1
  funext i
  by_cases h : i = Fin.last (n + 1)
  · subst h; simp
  · simp [Function.update_of_ne h]

variable {P : Par F} {f g : (Fin (n + 1) → F) → F} {C : Chart F n}

theorem shrink_chart (hg : ∀ x, g (C.at x) = f x) (s : Simplex F n) : shrink P g (C.simplex s) = C.simplex (shrink P f s) := by
  have hx : ∀ i, (if i = 0 then C.at (s.x 0) else C.at (s.x 0) + P.delta • (C.at (s.x i) - C.at (s.x 0)))
      = C.at (if i = 0 then s.x 0 else s.x 0 + P.delta • (s.x i - s.x 0)) := by
    intro i
    split
    · rfl
    · exact (at_move C _ _ _ _).symm
  unfold shrink Chart.simplex bestX
  dsimp only
  congr 1
  · exact funext hx
  · funext i
    split
    · rfl
    · rename_i h
      have := hx i
      rw [if_neg h, if_neg h] at this
      rw [this, hg]

theorem contract_chart (hg : ∀ x, g (C.at x) = f x) (s : Simplex F n) (R : Fin (n + 1) → F) :
    contract P g (C.simplex s) (C.at R) = (C.at (contract P f s R).1, (contract P f s R).2) := by
  unfold contract
  dsimp only
  rw [centroid_chart]
  have e1 : worstX (C.simplex s) = C.at (worstX s) := rfl
  rw [e1, ← at_move, ← at_move, hg, hg]
  split <;> rfl

theorem move_chart (hg : ∀ x, g (C.at x) = f x) (s : Simplex F n) (R : Fin (n + 1) → F) : move P g (C.simplex s) (C.at R) = C.simplex (move P f s R) := by
  unfold move
  dsimp only
  rw [contract_chart hg, centroid_chart, ← at_move, hg, hg, shrink_chart hg]
  have e1 : secondF (C.simplex s) = secondF s := rfl
  have e2 : bestF (C.simplex s) = bestF s := rfl
  have e3 : worstF (C.simplex s) = worstF s := rfl
  rw [e1, e2, e3]
  split_ifs <;> simp only [replace_chart]

theorem moveL_chart (hg : ∀ x, g (C.at x) = f x) (s : Simplex F n) (R : Fin (n + 1) → F) :
    moveL P g (C.simplex s) (C.at R) = (moveL P f s R).map C.simplex := by
  unfold moveL
  dsimp only
  rw [centroid_chart, ← at_move, ← at_move, ← at_move', hg, hg, hg, hg, shrink_chart hg]
  have e1 : secondF (C.simplex s) = secondF s := rfl
  have e2 : bestF (C.simplex s) = bestF s := rfl
  have e3 : worstF (C.simplex s) = worstF s := rfl
  rw [e1, e2, e3]
  split_ifs <;> simp only [replace_chart, Option.map_some, Option.map_none]

/-! ### One step of either optimizer -/

/-- What the optimizer makes of the reflected point. -/
def nextN (P : Par F) (f : (Fin (n + 1) → F) → F) (s : Simplex F n) (R : Fin (n + 1) → F) : Simplex F n := orderPoints (move P f s R)

def nextL (P : Par F) (f : (Fin (n + 1) → F) → F) (s : Simplex F n) (R : Fin (n + 1) → F) : Simplex F n :=
  match moveL P f s R with
  | some s' => orderPoints s'
  | none => s

def stepWith (nx : Simplex F n → (Fin (n + 1) → F) → Simplex F n) (P : Par F) (t : St F n) (ρ : F) : St F n :=
  ⟨nx t.s (reflect P ρ t).1, (reflect P ρ t).2.1, (reflect P ρ t).2.2⟩

theorem step_with (t : St F n) (ρ : F) : step P f t ρ = stepWith (nextN P f) P t ρ := rfl

theorem stepL_with (t : St F n) (ρ : F) : (stepL P f t ρ).1 = stepWith (nextL P f) P t ρ := by
  unfold stepL stepWith nextL
  dsimp only
  split <;> (rename_i h; simp only [h])

theorem nextN_chart (hg : ∀ x, g (C.at x) = f x) (s : Simplex F n) (R : Fin (n + 1) → F) : nextN P g (C.simplex s) (C.at R) = C.simplex (nextN P f s R) := by
  unfold nextN
  rw [move_chart hg, order_chart]

theorem nextL_chart (hg : ∀ x, g (C.at x) = f x) (s : Simplex F n) (R : Fin (n + 1) → F) : nextL P g (C.simplex s) (C.at R) = C.simplex (nextL P f s R) := by
  unfold nextL
  rw [moveL_chart hg]
  cases moveL P f s R <;> rfl

/-- The plain reflection of the worst point. -/
def mirror (P : Par F) (s : Simplex F n) : Fin (n + 1) → F := centroid s + P.alpha • (centroid s - worstX s)

theorem mirror_chart (s : Simplex F n) : mirror P (C.simplex s) = C.at (mirror P s) := by
  unfold mirror
  rw [centroid_chart]
  have e1 : worstX (C.simplex s) = C.at (worstX s) := rfl
  rw [e1, ← at_move]

/-- Along the run the stuck check leaves the reflected point alone. -/
def Silent (nx : Simplex F n → (Fin (n + 1) → F) → Simplex F n) (P : Par F) : St F n → List F → Prop
  | _, [] => True
  | t, ρ :: l => (reflect P ρ t).1 = mirror P t.s ∧ Silent nx P (stepWith nx P t ρ) l

theorem affine_fold (nx nx' : Simplex F n → (Fin (n + 1) → F) → Simplex F n) (hn : ∀ s R, nx' (C.simplex s) (C.at R) = C.simplex (nx s R)) (ρs : List F) :
    ∀ t t' : St F n, t'.s = C.simplex t.s → Silent nx P t ρs → Silent nx' P t' ρs →
      (ρs.foldl (stepWith nx' P) t').s = C.simplex (ρs.foldl (stepWith nx P) t).s := by
  induction ρs with
  | nil => intro t t' h _ _; exact h
  | cons ρ l ih =>
    intro t t' h h1 h2
    refine ih _ _ ?_ h1.2 h2.2
    show nx' t'.s (reflect P ρ t').1 = C.simplex (nx t.s (reflect P ρ t).1)
    rw [h1.1, h2.1, h, mirror_chart, hn]

/-! ### Rigid motions -/

/-- The squared distance the stuck check looks at. -/
def gap (m : Fin 3 → Fin (n + 1) → F) : F := ∑ k, (m 0 k - m 2 k) ^ 2

theorem reflect_eq (ρ : F) (t : St F n) : reflect P ρ t =
    (if gap (Function.update t.stuck t.ind (mirror P t.s)) < (1 / 10 ^ 10) ^ 2 then centroid t.s + ρ • (centroid t.s - worstX t.s) else mirror P t.s,
      Function.update t.stuck t.ind (mirror P t.s), t.ind + 1) := rfl

/-- The point is too near the origin for the empty memory of the stuck check. -/
def NearOrigin (x : Fin (n + 1) → F) : Prop := ∑ k, (x k) ^ 2 < (1 / 10 ^ 10) ^ 2

theorem gap_chart (hr : C.Rigid) (m m' : Fin 3 → Fin (n + 1) → F) (h0 : m' 0 = C.at (m 0)) (h2 : m' 2 = C.at (m 2)) : gap m' = gap m := by
  unfold gap
  rw [h0, h2]
  have := hr (m 0 - m 2)
  rw [map_sub] at this
  have e : ∀ k, C.at (m 0) k - C.at (m 2) k = (C.L (m 0) - C.L (m 2)) k := by
    intro k
    unfold Chart.at
    simp only [Pi.add_apply, Pi.sub_apply]
    ring
  simp only [e]
  exact this

theorem reflect_chart (ρ : F) (t t' : St F n) (hs : t'.s = C.simplex t.s)
    (hgap : gap (Function.update t'.stuck t'.ind (mirror P t'.s)) < (1 / 10 ^ 10) ^ 2 ↔ gap (Function.update t.stuck t.ind (mirror P t.s)) < (1 / 10 ^ 10) ^ 2) :
    (reflect P ρ t').1 = C.at (reflect P ρ t).1 := by
  rw [reflect_eq, reflect_eq]
  dsimp only
  rw [if_congr hgap rfl rfl]
  split
  · rw [hs, centroid_chart]
    have e1 : worstX (C.simplex t.s) = C.at (worstX t.s) := rfl
    rw [e1, ← at_move]
  · rw [hs, mirror_chart]

/-- The memories correspond. -/
def Full (C : Chart F n) (t t' : St F n) : Prop := ∀ k, t'.stuck k = C.at (t.stuck k)

/-- The memories after one or two steps. -/
def Early (C : Chart F n) (t t' : St F n) : Prop :=
  (t.ind = 1 ∨ t.ind = 2 ∧ t'.stuck 1 = C.at (t.stuck 1)) ∧ t'.stuck 0 = C.at (t.stuck 0) ∧ t.stuck 2 = 0 ∧ t'.stuck 2 = 0
    ∧ ¬NearOrigin (t.stuck 0) ∧ ¬NearOrigin (t'.stuck 0)

theorem gap_zero (m : Fin 3 → Fin (n + 1) → F) (h : m 2 = 0) : gap m < (1 / 10 ^ 10) ^ 2 ↔ NearOrigin (m 0) := by
  unfold gap NearOrigin
  simp only [h, Pi.zero_apply, sub_zero]

theorem rigid_fold (hr : C.Rigid) (nx nx' : Simplex F n → (Fin (n + 1) → F) → Simplex F n) (hn : ∀ s R, nx' (C.simplex s) (C.at R) = C.simplex (nx s R))
    (ρs : List F) : ∀ t t' : St F n, t'.s = C.simplex t.s → t'.ind = t.ind → Full C t t' ∨ Early C t t' →
      (ρs.foldl (stepWith nx' P) t').s = C.simplex (ρs.foldl (stepWith nx P) t).s := by
  induction ρs with
  | nil => intro t t' h _ _; exact h
  | cons ρ l ih =>
    intro t t' hs hi hm
    have hR : mirror P t'.s = C.at (mirror P t.s) := by rw [hs, mirror_chart]
    have key : (gap (Function.update t'.stuck t'.ind (mirror P t'.s)) < (1 / 10 ^ 10) ^ 2 ↔ gap (Function.update t.stuck t.ind (mirror P t.s)) < (1 / 10 ^ 10) ^ 2) := by
      rcases hm with hm | ⟨h1, h2, h3, h4, h5, h6⟩
      · have hk : ∀ k, Function.update t'.stuck t'.ind (mirror P t'.s) k = C.at (Function.update t.stuck t.ind (mirror P t.s) k) := by
          intro k
          rw [hi, hR]
          by_cases e : k = t.ind
          · subst e; simp
          · rw [Function.update_of_ne e, Function.update_of_ne e, hm k]
        rw [gap_chart hr _ _ (hk 0) (hk 2)]
      · rcases h1 with h1 | ⟨h1, h7⟩
        · rw [gap_zero, gap_zero, hi, h1, Function.update_of_ne (by decide), Function.update_of_ne (by decide)]
          · exact iff_of_false h6 h5
          · rw [h1, Function.update_of_ne (by decide), h3]
          · rw [hi, h1, Function.update_of_ne (by decide), h4]
        · rw [gap_chart hr]
          · rw [hi, h1, Function.update_of_ne (by decide), Function.update_of_ne (by decide), h2]
          · rw [hi, h1, Function.update_self, Function.update_self, hR]
    have hx := reflect_chart (P := P) ρ t t' hs key
    refine ih _ _ ?_ ?_ ?_
    · show nx' t'.s (reflect P ρ t').1 = C.simplex (nx t.s (reflect P ρ t).1)
      rw [hx, hs, hn]
    · show t'.ind + 1 = t.ind + 1
      rw [hi]
    · show (∀ k, Function.update t'.stuck t'.ind (mirror P t'.s) k = C.at (Function.update t.stuck t.ind (mirror P t.s) k)) ∨
        (t.ind + 1 = 1 ∨ t.ind + 1 = 2 ∧ Function.update t'.stuck t'.ind (mirror P t'.s) 1 = C.at (Function.update t.stuck t.ind (mirror P t.s) 1))
        ∧ Function.update t'.stuck t'.ind (mirror P t'.s) 0 = C.at (Function.update t.stuck t.ind (mirror P t.s) 0)
        ∧ Function.update t.stuck t.ind (mirror P t.s) 2 = 0 ∧ Function.update t'.stuck t'.ind (mirror P t'.s) 2 = 0
        ∧ ¬NearOrigin (Function.update t.stuck t.ind (mirror P t.s) 0) ∧ ¬NearOrigin (Function.update t'.stuck t'.ind (mirror P t'.s) 0)
      rw [hi, hR]
      rcases hm with hm | ⟨h1, h2, h3, h4, h5, h6⟩
      · left
        intro k
        by_cases e : k = t.ind
        · subst e; simp
        · rw [Function.update_of_ne e, Function.update_of_ne e, hm k]
      · rcases h1 with h1 | ⟨h1, h7⟩
        · right
          rw [h1]
          refine ⟨Or.inr ⟨by decide, by simp⟩, ?_, ?_, ?_, ?_, ?_⟩
          · rw [Function.update_of_ne (by decide), Function.update_of_ne (by decide), h2]
          · rw [Function.update_of_ne (by decide), h3]
          · rw [Function.update_of_ne (by decide), h4]
          · rwa [Function.update_of_ne (by decide)]
          · rwa [Function.update_of_ne (by decide)]
        · left
          rw [h1]
          intro k
          fin_cases k
          · show Function.update t'.stuck 2 _ 0 = C.at (Function.update t.stuck 2 _ 0)
            rw [Function.update_of_ne (by decide), Function.update_of_ne (by decide), h2]
          · show Function.update t'.stuck 2 _ 1 = C.at (Function.update t.stuck 2 _ 1)
            rw [Function.update_of_ne (by decide), Function.update_of_ne (by decide), h7]
          · show Function.update t'.stuck 2 _ 2 = C.at (Function.update t.stuck 2 _ 2)
            rw [Function.update_self, Function.update_self]

theorem init_chart (hg : ∀ x, g (C.at x) = f x) (x : Fin (n + 2) → Fin (n + 1) → F) : (init g fun i => C.at (x i)).s = C.simplex (init f x).s := by
  show orderPoints (⟨fun i => C.at (x i), fun i => g (C.at (x i))⟩ : Simplex F n) = C.simplex (orderPoints ⟨x, fun i => f (x i)⟩)
  rw [← order_chart]
  simp only [hg]
  rfl

theorem rigid_run (hr : C.Rigid) (hg : ∀ x, g (C.at x) = f x) (nx nx' : Simplex F n → (Fin (n + 1) → F) → Simplex F n)
    (hn : ∀ s R, nx' (C.simplex s) (C.at R) = C.simplex (nx s R)) (x : Fin (n + 2) → Fin (n + 1) → F)
    (h1 : ¬NearOrigin (mirror P (init f x).s)) (h2 : ¬NearOrigin (mirror P (init g fun i => C.at (x i)).s)) (ρs : List F) :
    (ρs.foldl (stepWith nx' P) (init g fun i => C.at (x i))).s = C.simplex (ρs.foldl (stepWith nx P) (init f x)).s := by
  have hs := init_chart hg x
  cases ρs with
  | nil => exact hs
  | cons ρ l =>
    have g1 : ∀ (q : (Fin (n + 1) → F) → F) (y : Fin (n + 2) → Fin (n + 1) → F),
        gap (Function.update (init q y).stuck (init q y).ind (mirror P (init q y).s)) < (1 / 10 ^ 10) ^ 2 ↔ NearOrigin (mirror P (init q y).s) := by
      intro q y
      show gap (Function.update (fun _ _ => 0) 0 _) < _ ↔ _
      rw [gap_zero, Function.update_self]
      rw [Function.update_of_ne (by decide)]
      rfl
    have hx := reflect_chart (C := C) (P := P) ρ (init f x) (init g fun i => C.at (x i)) hs (by rw [g1, g1]; exact iff_of_false h2 h1)
    refine rigid_fold hr nx nx' hn l _ _ ?_ rfl (Or.inr ⟨Or.inl rfl, ?_, rfl, rfl, h1, h2⟩)
    · show nx' (init g _).s (reflect P ρ (init g _)).1 = C.simplex (nx (init f x).s (reflect P ρ (init f x)).1)
      rw [hx, hs, hn]
    · show mirror P (init g fun i => C.at (x i)).s = C.at (mirror P (init f x).s)
      rw [hs, mirror_chart]

/-! ### The theorems -/

theorem run_with (x : Fin (n + 2) → Fin (n + 1) → F) (ρs : List F) : run P f x ρs = ρs.foldl (stepWith (nextN P f) P) (init f x) := rfl

theorem runL_with (x : Fin (n + 2) → Fin (n + 1) → F) (ρs : List F) : runL P f x ρs = ρs.foldl (stepWith (nextL P f) P) (init f x) := by
  unfold runL
  congr 1
  funext t ρ
  exact stepL_with t ρ

/-- **C123** (affine coordinates).  If an objective is expressed in other coordinates, the run from the transformed simplex visits the transformed points with the same
values, as long as the stuck check does not interfere. -/
theorem C123_affine_partial (hg : ∀ x, g (C.at x) = f x) (x : Fin (n + 2) → Fin (n + 1) → F) (ρs : List F)
    (h1 : Silent (nextN P f) P (init f x) ρs) (h2 : Silent (nextN P g) P (init g fun i => C.at (x i)) ρs) (i : Fin (n + 2)) :
    (run P g (fun i => C.at (x i)) ρs).s.x i = C.L ((run P f x ρs).s.x i) + C.v
      ∧ (run P g (fun i => C.at (x i)) ρs).s.f i = (run P f x ρs).s.f i := by
  have := affine_fold (C := C) (nextN P f) (nextN P g) (nextN_chart hg) ρs _ _ (init_chart hg x) h1 h2
  rw [← run_with, ← run_with] at this
  exact ⟨by rw [this]; rfl, by rw [this]; rfl⟩

/-- **C123** (rigid motions).  For coordinates that keep lengths the stuck check makes no difference after the first reflection, which must not fall on the origin. -/
theorem C123_rigid_partial (hr : C.Rigid) (hg : ∀ x, g (C.at x) = f x) (x : Fin (n + 2) → Fin (n + 1) → F)
    (h1 : ¬NearOrigin (mirror P (init f x).s)) (h2 : ¬NearOrigin (mirror P (init g fun i => C.at (x i)).s)) (ρs : List F) (i : Fin (n + 2)) :
    (run P g (fun i => C.at (x i)) ρs).s.x i = C.L ((run P f x ρs).s.x i) + C.v
      ∧ (run P g (fun i => C.at (x i)) ρs).s.f i = (run P f x ρs).s.f i := by
  have := rigid_run (P := P) hr hg (nextN P f) (nextN P g) (nextN_chart hg) x h1 h2 ρs
  rw [← run_with, ← run_with] at this
  exact ⟨by rw [this]; rfl, by rw [this]; rfl⟩

/-- The same for the Lagarias variant. -/
theorem C123_lagarias_partial (hr : C.Rigid) (hg : ∀ x, g (C.at x) = f x) (x : Fin (n + 2) → Fin (n + 1) → F)
    (h1 : ¬NearOrigin (mirror P (init f x).s)) (h2 : ¬NearOrigin (mirror P (init g fun i => C.at (x i)).s)) (ρs : List F) (i : Fin (n + 2)) :
    (runL P g (fun i => C.at (x i)) ρs).s.x i = C.L ((runL P f x ρs).s.x i) + C.v
      ∧ (runL P g (fun i => C.at (x i)) ρs).s.f i = (runL P f x ρs).s.f i := by
  have := rigid_run (P := P) hr hg (nextL P f) (nextL P g) (nextL_chart hg) x h1 h2 ρs
  rw [← runL_with, ← runL_with] at this
  exact ⟨by rw [this]; rfl, by rw [this]; rfl⟩

/-- A translation by one unit. -/
def shiftOne : Chart ℚ 0 := ⟨LinearMap.id, fun _ => 1⟩

/-- **C123** fails at the origin: from the points 1 and 2 with objective `x ↦ x` the first reflection is the origin, and a random point is taken instead;
one unit to the right it is not. -/
theorem C123_origin_special : ∃ (f g : (Fin 1 → ℚ) → ℚ) (x : Fin 2 → Fin 1 → ℚ), (∀ y, g (shiftOne.at y) = f y)
    ∧ (run ⟨1, 2, 1 / 2, 1 / 2⟩ g (fun i => shiftOne.at (x i)) [1 / 2]).s.x 0 ≠ shiftOne.at ((run ⟨1, 2, 1 / 2, 1 / 2⟩ f x [1 / 2]).s.x 0) := by
  refine ⟨fun y => y 0, fun y => y 0 - 1, fun i _ => i.val + 1, fun y => ?_, ?_⟩
  · show y 0 + 1 - 1 = y 0
    ring
  · decide +kernel

/-- The hypotheses of the rigid case are met: two dimensions, a quarter turn and a translation. -/
def quarter : Chart ℚ 1 := ⟨{ toFun := fun w k => if k = 0 then -w 1 else w 0, map_add' := fun a b => by funext k; simp only [Pi.add_apply]; split <;> ring, map_smul' := fun a b => by funext k; simp only [Pi.smul_apply, smul_eq_mul, RingHom.id_apply]; split <;> ring }, fun _ => 3⟩

example : quarter.Rigid ∧ ¬NearOrigin (mirror (⟨1, 2, 1 / 2, 1 / 2⟩ : Par ℚ) (init (fun v : Fin 2 → ℚ => v 0 ^ 2 + 2 * v 1 ^ 2)
    (fun i k => if i = 0 then 1 else if (i : ℕ) = k + 1 then 2 else 1)).s) := by
  constructor
  · intro w
    show ∑ k : Fin 2, (if k = 0 then -w 1 else w 0) ^ 2 = ∑ k : Fin 2, (w k) ^ 2
    rw [Fin.sum_univ_two, Fin.sum_univ_two]
    simp
    ring
  · unfold NearOrigin
    decide +kernel

end HQCA.Props
