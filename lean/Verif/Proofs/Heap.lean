import Verif.Model.Heap
import Verif.Proofs.Operator

/-!
# Lemmas on the object model of operators
-/

set_option linter.unusedSectionVars false

namespace HQCA.Heap
variable {α K : Type} [DecidableEq α] [Coef K]

/-- Every reference points to an allocated object. -/
def Bounded (h : List K) (d : Dict α) : Prop := ∀ r ∈ d, r.2 < h.length

/-- No key twice (a dictionary). -/
def UK (d : Dict α) : Prop := (d.map (·.1)).Nodup

theorem get_append (h x : List K) (r : Ref α) (hr : r.2 < h.length) : get (h ++ x) r = get h r := by
  unfold get
  simp [List.getD_eq_getElem?_getD, List.getElem?_append_left hr]

theorem get_fresh (h : List K) (c : K) (s : α) : get (h ++ [c]) (s, h.length) = c := by
  simp [get]

theorem view_append (h x : List K) (d : Dict α) (hd : Bounded h d) : view (h ++ x) d = view h d := by
  unfold view
  apply List.map_congr_left
  intro r hr
  rw [get_append h x r (hd r hr)]

theorem view_keys (h : List K) (d : Dict α) : (view h d).map (·.1) = d.map (·.1) := by
  simp [view, Function.comp_def]

theorem view_unique (h : List K) (d : Dict α) : UniqueKeys (view h d) ↔ UK d := by
  unfold UniqueKeys UK; rw [view_keys]

theorem Bounded.mono {h h' : List K} {d : Dict α} (hd : Bounded h d) (hl : h.length ≤ h'.length) :
    Bounded h' d := fun r hr => lt_of_lt_of_le (hd r hr) hl

theorem view_clean (h : List K) (d : Dict α) : view h (clean h d) = OpD.clean (view h d) := by
  unfold view clean OpD.clean
  rw [List.filter_map]
  rfl

theorem clean_sub (h : List K) (d : Dict α) : ∀ r ∈ clean h d, r ∈ d :=
  fun r hr => List.mem_of_mem_filter hr

theorem clean_UK (h : List K) (d : Dict α) (hd : UK d) : UK (clean h d) :=
  hd.sublist (List.filter_sublist.map _)

/-- What one addition of a string does. -/
theorem addRef_spec (h : List K) (d : Dict α) (r : Ref α) (hd : Bounded h d) (hr : r.2 < h.length)
    (hu : UK d) :
    view (addRef (h, d) r).1 (addRef (h, d) r).2 = OpD.addStr (view h d) (r.1, get h r) ∧
    (∃ x, (addRef (h, d) r).1 = h ++ x) ∧
    Bounded (addRef (h, d) r).1 (addRef (h, d) r).2 ∧ UK (addRef (h, d) r).2 ∧
    (∀ u ∈ (addRef (h, d) r).2, u ∈ d ∨ u = r ∨ u = (r.1, h.length)) := by
  have hk : OpD.hasKey (view h d) r.1 = true ↔ ∃ u ∈ d, u.1 = r.1 := by
    rw [OpD.hasKey_iff, view_keys]; simp
  unfold addRef
  cases hf : d.find? (fun u => u.1 = r.1) with
  | none =>
    have hno : ¬ ∃ u ∈ d, u.1 = r.1 := by
      rintro ⟨u, hu1, hu2⟩
      have := List.find?_eq_none.mp hf u hu1
      simp [hu2] at this
    refine ⟨?_, ⟨[], by simp⟩, ?_, ?_, ?_⟩
    · simp only [OpD.addStr]
      rw [if_neg (by rw [hk]; exact hno)]
      simp [view]
    · intro u hu
      rcases List.mem_append.mp hu with h1 | h1
      · exact hd u h1
      · simp only [List.mem_singleton] at h1; rw [h1]; exact hr
    · unfold UK at hu ⊢
      simp only [List.map_append, List.map_cons, List.map_nil]
      rw [List.nodup_append]
      refine ⟨hu, by simp, ?_⟩
      intro a ha b hb
      simp only [List.mem_singleton] at hb
      rw [hb]
      rintro rfl
      obtain ⟨u, h1, h2⟩ := List.mem_map.mp ha
      exact hno ⟨u, h1, h2⟩
    · intro u hu
      rcases List.mem_append.mp hu with h1 | h1
      · exact Or.inl h1
      · simp only [List.mem_singleton] at h1; exact Or.inr (Or.inl h1)
  | some old =>
    have hold : old ∈ d := List.mem_of_find?_eq_some hf
    have hold1 : old.1 = r.1 := by simpa using List.find?_some hf
    refine ⟨?_, ⟨_, rfl⟩, ?_, ?_, ?_⟩
    · simp only [OpD.addStr]
      rw [if_pos (by rw [hk]; exact ⟨old, hold, hold1⟩)]
      simp only [view, List.map_map]
      apply List.map_congr_left
      intro u hu'
      simp only [Function.comp]
      by_cases h1 : u.1 = r.1
      · have : u = old := by
          have := List.inj_on_of_nodup_map hu hu' hold (by rw [h1, hold1])
          exact this
        subst this
        simp only [h1, if_true]
        rw [get_fresh]
      · simp only [h1, if_false]
        rw [get_append _ _ _ (hd u hu')]
    · intro u hu'
      obtain ⟨v, hv, rfl⟩ := List.mem_map.mp hu'
      have := hd v hv
      split
      · simp
      · simp; omega
    · unfold UK at hu ⊢
      rw [List.map_map]
      have : (fun u : Ref α => u.1) ∘ (fun u => if u.1 = r.1 then (u.1, h.length) else u)
          = (fun u => u.1) := by
        funext u; simp only [Function.comp]; split <;> rfl
      rw [this]; exact hu
    · intro u hu'
      obtain ⟨v, hv, rfl⟩ := List.mem_map.mp hu'
      by_cases h1 : v.1 = r.1
      · right; right; rw [if_pos h1, h1]
      · left; rw [if_neg h1]; exact hv

/-- What adding several strings does. -/
theorem foldl_addRef_spec (l : Dict α) (h : List K) (d : Dict α) (hd : Bounded h d) (hl : Bounded h l)
    (hu : UK d) :
    view (l.foldl addRef (h, d)).1 (l.foldl addRef (h, d)).2
      = (view h l).foldl OpD.addStr (view h d) ∧
    (∃ x, (l.foldl addRef (h, d)).1 = h ++ x) ∧
    Bounded (l.foldl addRef (h, d)).1 (l.foldl addRef (h, d)).2 ∧ UK (l.foldl addRef (h, d)).2 ∧
    (∀ u ∈ (l.foldl addRef (h, d)).2, u ∈ d ∨ u ∈ l ∨ h.length ≤ u.2) := by
  induction l generalizing h d with
  | nil => exact ⟨rfl, ⟨[], by simp⟩, hd, hu, fun u hu' => Or.inl hu'⟩
  | cons r l ih =>
    obtain ⟨h1, ⟨x, hx⟩, h3, h4, h5⟩ := addRef_spec h d r hd (hl r (by simp)) hu
    have hl' : Bounded h l := fun u hu' => hl u (by simp [hu'])
    have hlen : h.length ≤ (addRef (h, d) r).1.length := by rw [hx]; simp
    obtain ⟨g1, ⟨y, hy⟩, g3, g4, g5⟩ := ih (addRef (h, d) r).1 (addRef (h, d) r).2 h3 (hl'.mono hlen) h4
    simp only [List.foldl_cons]
    refine ⟨?_, ⟨x ++ y, by rw [hy, hx]; simp⟩, g3, g4, ?_⟩
    · rw [g1, h1]
      have : view (addRef (h, d) r).1 l = view h l := by rw [hx, view_append h x l hl']
      rw [this]; rfl
    · intro u hu'
      rcases g5 u hu' with h' | h' | h'
      · rcases h5 u h' with h'' | h'' | h''
        · exact Or.inl h''
        · exact Or.inr (Or.inl (by simp [h'']))
        · exact Or.inr (Or.inr (by simp [h'']))
      · exact Or.inr (Or.inl (by simp [h']))
      · exact Or.inr (Or.inr (le_trans hlen h'))

/-- When all keys are already present, an entry whose key is not touched keeps its place and reference. -/
theorem foldl_addRef_getElem (l : Dict α) (h : List K) (d : Dict α) (hk : ∀ r ∈ l, ∃ u ∈ d, u.1 = r.1)
    (n : ℕ) (u : Ref α) (hn : d[n]? = some u) (hu : u.1 ∉ l.map (·.1)) :
    (l.foldl addRef (h, d)).2[n]? = some u := by
  induction l generalizing h d with
  | nil => exact hn
  | cons r l ih =>
    simp only [List.foldl_cons]
    have hex := hk r (by simp)
    have hstep : (addRef (h, d) r).2 = d.map (fun u => if u.1 = r.1 then (u.1, h.length) else u) := by
      unfold addRef
      cases hf : d.find? (fun u => u.1 = r.1) with
      | none =>
        obtain ⟨v, hv, hv1⟩ := hex
        have := List.find?_eq_none.mp hf v hv
        simp [hv1] at this
      | some old => rfl
    have hu1 : u.1 ≠ r.1 := fun h => hu (by simp [h])
    have hu2 : u.1 ∉ l.map (·.1) := fun h => hu (by simp only [List.map_cons, List.mem_cons]; exact Or.inr h)
    have h1 : (addRef (h, d) r).2[n]? = some u := by
      rw [hstep, List.getElem?_map, hn]; simp [hu1]
    have h2 : ∀ r' ∈ l, ∃ u ∈ (addRef (h, d) r).2, u.1 = r'.1 := by
      intro r' hr'
      obtain ⟨v, hv, hv1⟩ := hk r' (by simp [hr'])
      rw [hstep]
      refine ⟨_, List.mem_map_of_mem hv, ?_⟩
      split
      · exact hv1
      · exact hv1
    exact ih (addRef (h, d) r).1 (addRef (h, d) r).2 h2 h1 hu2

theorem op_set_self (ops : List (Dict α)) (i : ℕ) (d : Dict α) (hi : i < ops.length) :
    (ops.set i d).getD i [] = d := by
  rw [List.getD_eq_getElem?_getD, List.getElem?_set_self hi]; rfl

theorem op_set_ne (ops : List (Dict α)) (i j : ℕ) (d : Dict α) (hij : i ≠ j) :
    (ops.set i d).getD j [] = ops.getD j [] := by
  rw [List.getD_eq_getElem?_getD, List.getElem?_set_ne hij, List.getD_eq_getElem?_getD]

/-- Iterating over the live dictionary visits the strings it held at the start, also for `A + A`. -/
theorem addOp_eq (σ : St α K) (i j : ℕ) (hi : i < σ.ops.length) (hu : UK (σ.op j)) :
    σ.addOp i j =
      { σ with
        heap := ((σ.op j).foldl addRef (σ.heap, σ.op i)).1
        ops := σ.ops.set i (clean ((σ.op j).foldl addRef (σ.heap, σ.op i)).1
          ((σ.op j).foldl addRef (σ.heap, σ.op i)).2) } := by
  have key : ∀ n, n ≤ (σ.op j).length →
      (List.range n).foldl (St.visit i j) σ =
      { σ with
        heap := (((σ.op j).take n).foldl addRef (σ.heap, σ.op i)).1
        ops := σ.ops.set i (((σ.op j).take n).foldl addRef (σ.heap, σ.op i)).2 } := by
    intro n
    induction n with
    | zero =>
      intro _
      simp only [List.range_zero, List.foldl_nil, List.take_zero]
      have : σ.ops.set i (σ.op i) = σ.ops := by
        unfold St.op
        rw [List.getD_eq_getElem?_getD, List.getElem?_eq_getElem hi]
        simp
      rw [this]
    | succ n ih =>
      intro hn
      have hn' : n < (σ.op j).length := hn
      rw [List.range_succ, List.foldl_append, ih (le_of_lt hn')]
      simp only [List.foldl_cons, List.foldl_nil]
      have htake : (σ.op j).take (n+1) = (σ.op j).take n ++ [(σ.op j)[n]] := by simp
      set τ : St α K := { σ with
        heap := (((σ.op j).take n).foldl addRef (σ.heap, σ.op i)).1
        ops := σ.ops.set i (((σ.op j).take n).foldl addRef (σ.heap, σ.op i)).2 } with hτ
      have hread : (τ.op j)[n]? = some (σ.op j)[n] := by
        by_cases hij : i = j
        · subst hij
          have : τ.op i = (((σ.op i).take n).foldl addRef (σ.heap, σ.op i)).2 := by
            rw [hτ]; exact op_set_self _ _ _ hi
          rw [this]
          apply foldl_addRef_getElem
          · intro r hr
            exact ⟨r, List.mem_of_mem_take hr, rfl⟩
          · exact List.getElem?_eq_getElem hn'
          · intro hmem
            obtain ⟨v, hv, hv1⟩ := List.mem_map.mp hmem
            obtain ⟨m, hm, hm1⟩ := List.mem_take_iff_getElem.mp hv
            have hmn : m < n := by omega
            have hnd := List.nodup_iff_injective_getElem.mp hu
            have := @hnd ⟨m, by simp; omega⟩ ⟨n, by simpa using hn'⟩ (by
              simp only [List.getElem_map]
              rw [hm1]; exact hv1)
            simp only [Fin.mk.injEq] at this
            omega
        · have : τ.op j = σ.op j := by rw [hτ]; exact op_set_ne _ _ _ _ hij
          rw [this]; exact List.getElem?_eq_getElem hn'
      unfold St.visit
      rw [hread]
      simp only
      have hopi : τ.op i = (((σ.op j).take n).foldl addRef (σ.heap, σ.op i)).2 := by
        rw [hτ]; exact op_set_self _ _ _ hi
      unfold St.addRefTo
      rw [hopi, htake, List.foldl_append, hτ]
      simp only [List.foldl_cons, List.foldl_nil, List.set_set, Prod.mk.eta]
  unfold St.addOp
  simp only
  rw [key _ le_rfl, List.take_length]
  simp only [List.set_set, St.op]
  rw [op_set_self _ _ _ hi]

end HQCA.Heap
