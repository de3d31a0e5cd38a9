import Verif.Spec.Den

set_option linter.unusedSectionVars false

namespace HQCA
variable {K : Type} [Coef K] {α : Type} [DecidableEq α]

namespace OpD

omit [Coef K] in
theorem hasKey_iff (A : OpD α K) (s : α) : A.hasKey s = true ↔ s ∈ A.map (·.1) := by
  simp [hasKey, List.any_eq_true]

omit [Coef K] in
theorem addStr_keys [Add K] (A : OpD α K) (t : Term α K) :
    (addStr A t).map (·.1) = if A.hasKey t.1 then A.map (·.1) else A.map (·.1) ++ [t.1] := by
  unfold addStr
  by_cases h : A.hasKey t.1
  · simp only [h, if_true, List.map_map]
    apply List.map_congr_left
    intro u _
    simp only [Function.comp]
    split <;> rfl
  · simp [h]

omit [Coef K] in
theorem addStr_unique [Add K] (A : OpD α K) (t : Term α K) (h : UniqueKeys A) :
    UniqueKeys (addStr A t) := by
  unfold UniqueKeys at *
  rw [addStr_keys]
  split
  · exact h
  · rename_i hk
    rw [hasKey_iff] at hk
    rw [List.nodup_append]
    refine ⟨h, by simp, ?_⟩
    intro a ha b hb
    simp at hb
    subst hb
    intro e
    exact hk (e ▸ ha)

omit [Coef K] in
theorem foldl_addStr_unique [Add K] (B A : OpD α K) (h : UniqueKeys A) :
    UniqueKeys (B.foldl addStr A) := by
  induction B generalizing A with
  | nil => exact h
  | cons t B ih => exact ih _ (addStr_unique A t h)

theorem clean_unique (A : OpD α K) (h : UniqueKeys A) : UniqueKeys (clean A) := by
  unfold UniqueKeys clean at *
  exact h.sublist (List.Sublist.map _ List.filter_sublist)

theorem add_unique (A B : OpD α K) (h : UniqueKeys A) : UniqueKeys (add A B) :=
  clean_unique _ (foldl_addStr_unique B A h)

omit [DecidableEq α] in
theorem denD_cons (d : α → Oper K) (t : Term α K) (A : OpD α K) :
    denD d (t :: A) = t.2 • d t.1 + denD d A := by simp [denD]

omit [DecidableEq α] in
theorem denD_append (d : α → Oper K) (A B : OpD α K) :
    denD d (A ++ B) = denD d A + denD d B := by simp [denD]

omit [DecidableEq α] in
theorem denD_nil (d : α → Oper K) : denD d ([] : OpD α K) = 0 := rfl

/-- Linear functionals of a dictionary: the common pattern behind `denD` and `coef`. -/
theorem sum_addStr {M : Type} [AddCommMonoid M] (f : α → K → M)
    (hf : ∀ s a b, f s (a + b) = f s a + f s b) (A : OpD α K) (t : Term α K) (h : UniqueKeys A) :
    ((addStr A t).map (fun u => f u.1 u.2)).sum = (A.map (fun u => f u.1 u.2)).sum + f t.1 t.2 := by
  unfold addStr
  by_cases hk : A.hasKey t.1
  · simp only [hk, if_true]
    rw [hasKey_iff] at hk
    induction A with
    | nil => simp at hk
    | cons u A ih =>
      have hu : UniqueKeys A := (List.nodup_cons.mp h).2
      by_cases he : u.1 = t.1
      · have hnot : t.1 ∉ A.map (·.1) := by rw [← he]; exact (List.nodup_cons.mp h).1
        have hid : A.map (fun u => if u.1 = t.1 then (u.1, u.2 + t.2) else u) = A := by
          conv_rhs => rw [← List.map_id A]
          apply List.map_congr_left
          intro v hv
          have : v.1 ≠ t.1 := fun e => hnot (e ▸ List.mem_map_of_mem hv)
          simp [this]
        simp only [List.map_cons, he, if_true, List.sum_cons, hid]
        rw [hf]
        abel
      · have hk' : t.1 ∈ A.map (·.1) := by
          rcases List.mem_cons.mp hk with h1 | h1
          · exact absurd h1.symm he
          · exact h1
        simp only [List.map_cons, he, if_false, List.sum_cons]
        rw [ih hu hk', add_assoc]
  · simp [hk]

theorem sum_foldl_addStr {M : Type} [AddCommMonoid M] (f : α → K → M)
    (hf : ∀ s a b, f s (a + b) = f s a + f s b) (B A : OpD α K) (h : UniqueKeys A) :
    ((B.foldl addStr A).map (fun u => f u.1 u.2)).sum =
      (A.map (fun u => f u.1 u.2)).sum + (B.map (fun u => f u.1 u.2)).sum := by
  induction B generalizing A with
  | nil => simp
  | cons t B ih =>
    simp only [List.foldl_cons, List.map_cons, List.sum_cons]
    rw [ih _ (addStr_unique A t h), sum_addStr f hf A t h, add_assoc]

theorem denD_foldl_addStr (d : α → Oper K) (B A : OpD α K) (h : UniqueKeys A) :
    denD d (B.foldl addStr A) = denD d A + denD d B :=
  sum_foldl_addStr (fun s c => c • d s) (fun _ _ _ => add_smul _ _ _) B A h

theorem coef_eq_sum (A : OpD α K) (s : α) :
    coef A s = (A.map (fun u => if u.1 = s then u.2 else 0)).sum := by
  unfold coef
  induction A with
  | nil => rfl
  | cons u A ih =>
    by_cases h : u.1 = s
    · rw [List.filter_cons_of_pos (by simpa using h)]; simp [h, ih]
    · rw [List.filter_cons_of_neg (by simpa using h)]; simp [h, ih]

theorem coef_foldl_addStr (B A : OpD α K) (h : UniqueKeys A) (s : α) :
    coef (B.foldl addStr A) s = coef A s + coef B s := by
  simp only [coef_eq_sum]
  exact sum_foldl_addStr (fun k c => if k = s then c else 0)
    (fun k a b => by by_cases h : k = s <;> simp [h]) B A h

theorem coef_of_mem (A : OpD α K) (h : UniqueKeys A) (t : Term α K) (ht : t ∈ A) :
    coef A t.1 = t.2 := by
  rw [coef_eq_sum]
  induction A with
  | nil => simp at ht
  | cons u A ih =>
    have hu := List.nodup_cons.mp h
    simp only [List.map_cons, List.sum_cons]
    rcases List.mem_cons.mp ht with h1 | h1
    · subst h1
      have : (A.map (fun u => if u.1 = t.1 then u.2 else 0)).sum = 0 := by
        apply List.sum_eq_zero
        intro x hx
        obtain ⟨v, hv, rfl⟩ := List.mem_map.mp hx
        have : v.1 ≠ t.1 := fun e => hu.1 (List.mem_map.mpr ⟨v, hv, e⟩)
        simp [this]
      simp [this]
    · have hne : u.1 ≠ t.1 := fun e => hu.1 (List.mem_map.mpr ⟨t, h1, e.symm⟩)
      rw [ih hu.2 h1]
      simp [hne]

theorem coef_of_not_mem (A : OpD α K) (s : α) (h : s ∉ A.map (·.1)) : coef A s = 0 := by
  rw [coef_eq_sum]
  apply List.sum_eq_zero
  intro x hx
  obtain ⟨v, hv, rfl⟩ := List.mem_map.mp hx
  have : v.1 ≠ s := fun e => h (e ▸ List.mem_map_of_mem hv)
  simp [this]

/-- Cleaning at the level of coefficients. -/
theorem coef_clean (A : OpD α K) (h : UniqueKeys A) (s : α) :
    coef (clean A) s = if small (coef A s) then 0 else coef A s := by
  by_cases hs : s ∈ A.map (·.1)
  · obtain ⟨t, ht, rfl⟩ := List.mem_map.mp hs
    rw [coef_of_mem A h t ht]
    by_cases hsm : small t.2 = true
    · rw [if_pos hsm]
      apply coef_of_not_mem
      intro hm
      obtain ⟨u, hu, he⟩ := List.mem_map.mp hm
      have hu' := List.mem_filter.mp hu
      have : u.2 = t.2 := by
        rw [← coef_of_mem A h u hu'.1, he, coef_of_mem A h t ht]
      rw [this] at hu'
      simp [hsm] at hu'
    · rw [if_neg hsm]
      apply coef_of_mem (clean A) (clean_unique A h) t
      exact List.mem_filter.mpr ⟨ht, by simpa using hsm⟩
  · rw [coef_of_not_mem A s hs, coef_of_not_mem]
    · simp
    · intro hm
      obtain ⟨u, hu, he⟩ := List.mem_map.mp hm
      exact hs (he ▸ List.mem_map_of_mem (List.mem_filter.mp hu).1)

/-- The part removed by `clean`. -/
def dropped (A : OpD α K) : OpD α K := A.filter (fun t => small t.2)

omit [DecidableEq α] in
theorem denD_clean (d : α → Oper K) (A : OpD α K) :
    denD d (clean A) + denD d (dropped A) = denD d A := by
  induction A with
  | nil => simp [clean, dropped, denD]
  | cons t A ih =>
    unfold clean dropped at *
    by_cases h : small t.2 = true
    · rw [List.filter_cons_of_neg (by simp [h]), List.filter_cons_of_pos (by simp [h]), denD_cons,
        denD_cons, ← ih]; abel
    · rw [List.filter_cons_of_pos (by simp [h]), List.filter_cons_of_neg (by simp [h]), denD_cons,
        denD_cons, ← ih]; abel

omit [DecidableEq α] in
theorem denD_zero_coeffs (d : α → Oper K) (A : OpD α K) (h : ∀ t ∈ A, t.2 = 0) : denD d A = 0 := by
  unfold denD
  apply List.sum_eq_zero
  intro x hx
  obtain ⟨v, hv, rfl⟩ := List.mem_map.mp hx
  simp [h v hv]

omit [DecidableEq α] in
/-- Cleaning is exact when the only small coefficients are zero. -/
theorem denD_clean_exact (d : α → Oper K) (A : OpD α K)
    (h : ∀ t ∈ A, small t.2 = true → t.2 = 0) : denD d (clean A) = denD d A := by
  rw [← denD_clean d A, denD_zero_coeffs d (dropped A), add_zero]
  intro t ht
  have := List.mem_filter.mp ht
  exact h t this.1 (by simpa using this.2)

omit [Coef K] [DecidableEq α] in
theorem mapM_option {β γ : Type} (f : β → Option γ) (l : List β) (r : List γ) :
    l.mapM f = some r ↔ List.Forall₂ (fun x y => f x = some y) l r := by
  induction l generalizing r with
  | nil =>
    constructor
    · intro h; simp at h; subst h; exact .nil
    · intro h; cases h; simp
  | cons x l ih =>
    rw [List.mapM_cons]
    constructor
    · intro h
      rcases hx : f x with _ | y
      · simp [hx] at h
      · rcases hl : l.mapM f with _ | ys
        · simp [hx, hl] at h
        · simp [hx, hl] at h
          subst h
          exact .cons hx ((ih ys).mp hl)
    · intro h
      cases h with
      | cons h1 h2 =>
        rw [(ih _).mpr h2, h1]; rfl

/-- If string products are correct then so is the sum of all pairwise products. -/
theorem denD_products (d : α → Oper K) (sm : Term α K → Term α K → Option (Term α K))
    (A B : OpD α K) (hsm : ∀ s ∈ A, ∀ t ∈ B, ∀ u, sm s t = some u →
      u.2 • d u.1 = (s.2 • d s.1) * (t.2 • d t.1))
    (l : List (Term α K)) (h : (mulPairs A B).mapM (fun p => sm p.1 p.2) = some l) :
    denD d l = denD d A * denD d B := by
  rw [mapM_option] at h
  have key : ∀ (ps : List (Term α K × Term α K)) (l : List (Term α K)),
      (∀ p ∈ ps, p.1 ∈ A ∧ p.2 ∈ B) →
      List.Forall₂ (fun x y => sm x.1 x.2 = some y) ps l →
      denD d l = (ps.map (fun p => (p.1.2 • d p.1.1) * (p.2.2 • d p.2.1))).sum := by
    intro ps l hm hf
    induction hf with
    | nil => rfl
    | cons h1 _ ih =>
      rw [denD_cons, List.map_cons, List.sum_cons, ih (fun p hp => hm p (List.mem_cons_of_mem _ hp))]
      obtain ⟨ha, hb⟩ := hm _ (List.mem_cons_self)
      rw [hsm _ ha _ hb _ h1]
  rw [key _ _ _ h]
  · unfold mulPairs denD
    rw [List.map_flatMap]
    clear key h hsm
    induction B with
    | nil => simp
    | cons b B ih =>
      rw [List.flatMap_cons, List.sum_append, ih, List.map_cons, List.sum_cons, mul_add]
      congr 1
      rw [List.map_map]
      clear ih
      induction A with
      | nil => simp
      | cons a A ih => simp only [List.map_cons, List.sum_cons, ih, add_mul, Function.comp]
  · intro p hp
    unfold mulPairs at hp
    obtain ⟨b, hb, h2⟩ := List.mem_flatMap.mp hp
    obtain ⟨a, ha, rfl⟩ := List.mem_map.mp h2
    exact ⟨ha, hb⟩

omit [DecidableEq α] [Coef K] in
theorem uniqueKeys_nil : UniqueKeys ([] : OpD α K) := by simp [UniqueKeys]

/-- Product of operators, up to the cleaned terms. -/
theorem mul_rounds (d : α → Oper K) (sm : Term α K → Term α K → Option (Term α K))
    (A B C : OpD α K) (hsm : ∀ s ∈ A, ∀ t ∈ B, ∀ u, sm s t = some u →
      u.2 • d u.1 = (s.2 • d s.1) * (t.2 • d t.1))
    (h : mul sm A B = some C) : Rounds d C (denD d A * denD d B) := by
  unfold mul at h
  rcases hl : (mulPairs A B).mapM (fun p => sm p.1 p.2) with _ | l
  · simp [hl] at h
  · simp only [hl, Option.map_some, Option.some.injEq] at h
    subst h
    refine ⟨l.foldl addStr [], foldl_addStr_unique l [] uniqueKeys_nil, ?_, rfl⟩
    rw [denD_foldl_addStr d l [] uniqueKeys_nil, denD_nil, zero_add, denD_products d sm A B hsm l hl]

theorem add_rounds (d : α → Oper K) (A B : OpD α K) (hA : UniqueKeys A) :
    Rounds d (add A B) (denD d A + denD d B) :=
  ⟨B.foldl addStr A, foldl_addStr_unique B A hA, denD_foldl_addStr d B A hA, rfl⟩

theorem mul_unique (sm : Term α K → Term α K → Option (Term α K)) (A B C : OpD α K)
    (h : mul sm A B = some C) : UniqueKeys C := by
  unfold mul at h
  rcases hl : (mulPairs A B).mapM (fun p => sm p.1 p.2) with _ | l
  · simp [hl] at h
  · simp only [hl, Option.map_some, Option.some.injEq] at h
    subst h
    exact clean_unique _ (foldl_addStr_unique l [] uniqueKeys_nil)

omit [Coef K] [DecidableEq α] in
theorem mapM_isSome {β γ : Type} (f : β → Option γ) (l : List β) (h : ∀ x ∈ l, (f x).isSome) :
    (l.mapM f).isSome := by
  induction l with
  | nil => simp
  | cons x l ih =>
    obtain ⟨y, hy⟩ := Option.isSome_iff_exists.mp (h x List.mem_cons_self)
    obtain ⟨ys, hys⟩ := Option.isSome_iff_exists.mp (ih (fun z hz => h z (List.mem_cons_of_mem _ hz)))
    rw [List.mapM_cons, hy, hys]; rfl

omit [DecidableEq α] in
theorem mem_mulPairs (A B : OpD α K) (p : Term α K × Term α K) :
    p ∈ mulPairs A B ↔ p.1 ∈ A ∧ p.2 ∈ B := by
  unfold mulPairs
  rw [List.mem_flatMap]
  constructor
  · rintro ⟨b, hb, h2⟩
    obtain ⟨a, ha, rfl⟩ := List.mem_map.mp h2
    exact ⟨ha, hb⟩
  · rintro ⟨ha, hb⟩
    exact ⟨p.2, hb, List.mem_map.mpr ⟨p.1, ha, rfl⟩⟩

theorem mul_isSome (sm : Term α K → Term α K → Option (Term α K)) (A B : OpD α K)
    (h : ∀ s ∈ A, ∀ t ∈ B, (sm s t).isSome) : (mul sm A B).isSome := by
  unfold mul
  rw [Option.isSome_map]
  apply mapM_isSome
  intro p hp
  obtain ⟨ha, hb⟩ := (mem_mulPairs A B p).mp hp
  exact h _ ha _ hb

omit [Coef K] in
/-- Every key of an accumulated dictionary comes from one of the two sides. -/
theorem mem_keys_foldl_addStr [Add K] (B A : OpD α K) (s : α) :
    s ∈ (B.foldl addStr A).map (·.1) ↔ s ∈ A.map (·.1) ∨ s ∈ B.map (·.1) := by
  induction B generalizing A with
  | nil => simp
  | cons t B ih =>
    rw [List.foldl_cons, ih, addStr_keys, List.map_cons, List.mem_cons]
    by_cases h : A.hasKey t.1
    · rw [if_pos h]
      rw [hasKey_iff] at h
      constructor
      · rintro (h1 | h1) <;> tauto
      · rintro (h1 | h1 | h1)
        · exact Or.inl h1
        · exact Or.inl (h1 ▸ h)
        · exact Or.inr h1
    · rw [if_neg h, List.mem_append, List.mem_singleton]
      tauto

end OpD
end HQCA
