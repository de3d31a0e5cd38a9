import Verif.Proofs.Heap
import Verif.Spec.History

/-!
# The object model refines the value semantics as long as nothing is subtracted
-/

set_option linter.unusedSectionVars false

namespace HQCA.Heap
variable {α K : Type} [DecidableEq α] [Coef K]

/-- One object has one key. -/
def ConsP (S : Ref α → Prop) : Prop := ∀ r r', S r → S r' → r.2 = r'.2 → r.1 = r'.1

/-- References held by some operator or by the caller. -/
def St.Live (σ : St α K) (r : Ref α) : Prop := r ∈ σ.strs ∨ ∃ d ∈ σ.ops, r ∈ d

structure WF (σ : St α K) : Prop where
  uk : ∀ d ∈ σ.ops, UK d
  bnd : ∀ r, σ.Live r → r.2 < σ.heap.length
  cons : ConsP σ.Live

theorem addRef_cons (S : Ref α → Prop) (h : List K) (d : Dict α) (r : Ref α)
    (hS : ∀ u, S u → u.2 < h.length) (hd : Bounded h d) (hr : S r) (hu : UK d)
    (hc : ConsP (fun u => S u ∨ u ∈ d)) : ConsP (fun u => S u ∨ u ∈ (addRef (h, d) r).2) := by
  have h5 := (addRef_spec h d r hd (hS r hr) hu).2.2.2.2
  have hcase : ∀ u, (S u ∨ u ∈ (addRef (h, d) r).2) →
      ((S u ∨ u ∈ d) ∧ u.2 < h.length) ∨ u = (r.1, h.length) := by
    rintro u (h1 | h1)
    · exact Or.inl ⟨Or.inl h1, hS u h1⟩
    · rcases h5 u h1 with h2 | h2 | h2
      · exact Or.inl ⟨Or.inr h2, hd u h2⟩
      · exact Or.inl ⟨Or.inl (h2 ▸ hr), h2 ▸ hS r hr⟩
      · exact Or.inr h2
  intro u v hu' hv' huv
  rcases hcase u hu' with ⟨h1, h2⟩ | h1 <;> rcases hcase v hv' with ⟨g1, g2⟩ | g1
  · exact hc u v h1 g1 huv
  · rw [g1] at huv; simp only at huv; omega
  · rw [h1] at huv; simp only at huv; omega
  · rw [h1, g1]

theorem foldl_addRef_cons (S : Ref α → Prop) (l : Dict α) (h : List K) (d : Dict α)
    (hS : ∀ u, S u → u.2 < h.length) (hd : Bounded h d) (hl : ∀ r ∈ l, S r) (hu : UK d)
    (hc : ConsP (fun u => S u ∨ u ∈ d)) : ConsP (fun u => S u ∨ u ∈ (l.foldl addRef (h, d)).2) := by
  induction l generalizing h d with
  | nil => exact hc
  | cons r l ih =>
    simp only [List.foldl_cons]
    obtain ⟨_, ⟨x, hx⟩, h3, h4, _⟩ := addRef_spec h d r hd (hS r (hl r (by simp))) hu
    have := addRef_cons S h d r hS hd (hl r (by simp)) hu hc
    have hlen : h.length ≤ (addRef (h, d) r).1.length := by rw [hx]; simp
    exact ih _ _ (fun u hu' => lt_of_lt_of_le (hS u hu') hlen) h3 (fun r' hr' => hl r' (by simp [hr'])) h4 this

/-- What adding fresh strings does. -/
theorem foldl_addFresh_spec (S : Ref α → Prop) (l : List (Term α K)) (h : List K) (d : Dict α)
    (hS : ∀ u, S u → u.2 < h.length) (hd : Bounded h d) (hu : UK d)
    (hc : ConsP (fun u => S u ∨ u ∈ d)) :
    view (l.foldl addFresh (h, d)).1 (l.foldl addFresh (h, d)).2 = l.foldl OpD.addStr (view h d) ∧
    (∃ x, (l.foldl addFresh (h, d)).1 = h ++ x) ∧
    Bounded (l.foldl addFresh (h, d)).1 (l.foldl addFresh (h, d)).2 ∧ UK (l.foldl addFresh (h, d)).2 ∧
    (∀ u ∈ (l.foldl addFresh (h, d)).2, u ∈ d ∨ h.length ≤ u.2) ∧
    ConsP (fun u => S u ∨ u ∈ (l.foldl addFresh (h, d)).2) := by
  induction l generalizing h d with
  | nil => exact ⟨rfl, ⟨[], by simp⟩, hd, hu, fun u hu' => Or.inl hu', hc⟩
  | cons t l ih =>
    have hd' : Bounded (h ++ [t.2]) d := hd.mono (by simp)
    have hr' : ((t.1, h.length) : Ref α).2 < (h ++ [t.2]).length := by simp
    obtain ⟨h1, ⟨x, hx⟩, h3, h4, h5⟩ := addRef_spec (h ++ [t.2]) d (t.1, h.length) hd' hr' hu
    have hS' : ∀ u : Ref α, (S u ∨ u = (t.1, h.length)) → u.2 < (h ++ [t.2]).length := by
      rintro u (h' | h')
      · have := hS u h'; simp; omega
      · rw [h']; simp
    have hc' : ConsP (fun u => (S u ∨ u = (t.1, h.length)) ∨ u ∈ d) := by
      have hb : ∀ u, ((S u ∨ u = (t.1, h.length)) ∨ u ∈ d) →
          ((S u ∨ u ∈ d) ∧ u.2 < h.length) ∨ u = (t.1, h.length) := by
        rintro u ((h' | h') | h')
        · exact Or.inl ⟨Or.inl h', hS u h'⟩
        · exact Or.inr h'
        · exact Or.inl ⟨Or.inr h', hd u h'⟩
      intro u v hu' hv' huv
      rcases hb u hu' with ⟨a1, a2⟩ | a1 <;> rcases hb v hv' with ⟨b1, b2⟩ | b1
      · exact hc u v a1 b1 huv
      · rw [b1] at huv; simp only at huv; omega
      · rw [a1] at huv; simp only at huv; omega
      · rw [a1, b1]
    have h6 := addRef_cons (fun u => S u ∨ u = (t.1, h.length)) (h ++ [t.2]) d (t.1, h.length) hS' hd'
      (Or.inr rfl) hu hc'
    have h6' : ConsP (fun u => S u ∨ u ∈ (addRef (h ++ [t.2], d) (t.1, h.length)).2) := by
      intro u v hu' hv'
      exact h6 u v (hu'.elim (fun a => Or.inl (Or.inl a)) Or.inr) (hv'.elim (fun a => Or.inl (Or.inl a)) Or.inr)
    have hlen : h.length ≤ (addRef (h ++ [t.2], d) (t.1, h.length)).1.length := by rw [hx]; simp
    obtain ⟨g1, ⟨y, hy⟩, g3, g4, g5, g6⟩ := ih (addRef (h ++ [t.2], d) (t.1, h.length)).1
      (addRef (h ++ [t.2], d) (t.1, h.length)).2 (fun u hu' => lt_of_lt_of_le (hS u hu') hlen) h3 h4 h6'
    simp only [List.foldl_cons]
    have hfr : addFresh (h, d) t = ((addRef (h ++ [t.2], d) (t.1, h.length)).1,
      (addRef (h ++ [t.2], d) (t.1, h.length)).2) := rfl
    rw [hfr]
    refine ⟨?_, ⟨[t.2] ++ (x ++ y), by rw [hy, hx]; simp⟩, g3, g4, ?_, g6⟩
    · rw [g1, h1, view_append h [t.2] d hd, get_fresh]
    · intro u hu'
      rcases g5 u hu' with h' | h'
      · rcases h5 u h' with h'' | h'' | h''
        · exact Or.inl h''
        · exact Or.inr (by rw [h''])
        · exact Or.inr (by rw [h'']; simp)
      · exact Or.inr (le_trans hlen h')

theorem ConsP.mono {S T : Ref α → Prop} (h : ConsP T) (hst : ∀ u, S u → T u) : ConsP S :=
  fun r r' hr hr' => h r r' (hst r hr) (hst r' hr')

theorem WF.op_live {σ : St α K} (i : ℕ) : ∀ r ∈ σ.op i, σ.Live r := by
  intro r hr
  unfold St.op at hr
  rw [List.getD_eq_getElem?_getD] at hr
  cases h : σ.ops[i]? with
  | none => simp [h] at hr
  | some d => simp only [h, Option.getD_some] at hr; exact Or.inr ⟨d, List.mem_of_getElem? h, hr⟩

theorem WF.op_uk {σ : St α K} (w : WF σ) (i : ℕ) : UK (σ.op i) := by
  unfold St.op
  rw [List.getD_eq_getElem?_getD]
  cases h : σ.ops[i]? with
  | none => simp [UK]
  | some d => exact w.uk d (List.mem_of_getElem? h)

theorem WF.op_bnd {σ : St α K} (w : WF σ) (i : ℕ) : Bounded σ.heap (σ.op i) :=
  fun r hr => w.bnd r (WF.op_live i r hr)

/-- Storing a new dictionary in place `i`. -/
theorem WF.set {σ : St α K} (w : WF σ) (i : ℕ) (h : List K) (d : Dict α)
    (hh : σ.heap.length ≤ h.length) (hd : Bounded h d) (hu : UK d)
    (hc : ConsP (fun u => σ.Live u ∨ u ∈ d)) : WF { σ with heap := h, ops := σ.ops.set i d } := by
  have hl : ∀ u, St.Live { σ with heap := h, ops := σ.ops.set i d } u → σ.Live u ∨ u ∈ d := by
    rintro u (h1 | ⟨e, he, h1⟩)
    · exact Or.inl (Or.inl h1)
    · rcases List.mem_or_eq_of_mem_set he with h2 | h2
      · exact Or.inl (Or.inr ⟨e, h2, h1⟩)
      · exact Or.inr (h2 ▸ h1)
  refine ⟨?_, ?_, hc.mono hl⟩
  · intro e he
    rcases List.mem_or_eq_of_mem_set he with h2 | h2
    · exact w.uk e h2
    · rw [h2]; exact hu
  · intro u hu'
    rcases hl u hu' with h1 | h1
    · exact lt_of_lt_of_le (w.bnd u h1) hh
    · exact hd u h1

/-- Creating a new operator. -/
theorem WF.push {σ : St α K} (w : WF σ) (h : List K) (d : Dict α)
    (hh : σ.heap.length ≤ h.length) (hd : Bounded h d) (hu : UK d)
    (hc : ConsP (fun u => σ.Live u ∨ u ∈ d)) : WF { σ with heap := h, ops := σ.ops ++ [d] } := by
  have hl : ∀ u, St.Live { σ with heap := h, ops := σ.ops ++ [d] } u → σ.Live u ∨ u ∈ d := by
    rintro u (h1 | ⟨e, he, h1⟩)
    · exact Or.inl (Or.inl h1)
    · rcases List.mem_append.mp he with h2 | h2
      · exact Or.inl (Or.inr ⟨e, h2, h1⟩)
      · simp only [List.mem_singleton] at h2; exact Or.inr (h2 ▸ h1)
  refine ⟨?_, ?_, hc.mono hl⟩
  · intro e he
    rcases List.mem_append.mp he with h2 | h2
    · exact w.uk e h2
    · simp only [List.mem_singleton] at h2; rw [h2]; exact hu
  · intro u hu'
    rcases hl u hu' with h1 | h1
    · exact lt_of_lt_of_le (w.bnd u h1) hh
    · exact hd u h1

theorem WF.init : WF (St.init : St α K) := by
  refine ⟨?_, ?_, ?_⟩
  · intro d hd; simp [St.init] at hd
  · rintro r (h | ⟨d, h, _⟩) <;> simp [St.init] at h
  · rintro r r' (h | ⟨d, h, _⟩) <;> simp [St.init] at h

theorem val_op (σ : St α K) (i : ℕ) : σ.val.op i = view σ.heap (σ.op i) := by
  unfold VSt.op St.val St.op
  simp only [List.getD_eq_getElem?_getD, List.getElem?_map]
  cases σ.ops[i]? <;> rfl

theorem map_view_append {σ : St α K} (w : WF σ) (x : List K) :
    σ.ops.map (view (σ.heap ++ x)) = σ.ops.map (view σ.heap) := by
  apply List.map_congr_left
  intro d hd
  exact view_append _ _ _ (fun r hr => w.bnd r (Or.inr ⟨d, hd, hr⟩))

theorem strs_view_append {σ : St α K} (w : WF σ) (x : List K) :
    σ.strs.map (fun r => (r.1, get (σ.heap ++ x) r)) = σ.strs.map (fun r => (r.1, get σ.heap r)) := by
  apply List.map_congr_left
  intro r hr
  rw [get_append _ _ _ (w.bnd r (Or.inl hr))]

/-- The user's view after storing a new dictionary on an extended heap. -/
theorem val_set {σ : St α K} (w : WF σ) (i : ℕ) (x : List K) (d : Dict α) :
    St.val { σ with heap := σ.heap ++ x, ops := σ.ops.set i d } =
      { σ.val with ops := σ.val.ops.set i (view (σ.heap ++ x) d) } := by
  unfold St.val
  simp only [List.map_set, map_view_append w x, strs_view_append w x]

theorem val_push {σ : St α K} (w : WF σ) (x : List K) (d : Dict α) :
    St.val { σ with heap := σ.heap ++ x, ops := σ.ops ++ [d] } =
      { σ.val with ops := σ.val.ops ++ [view (σ.heap ++ x) d] } := by
  unfold St.val
  simp only [List.map_append, map_view_append w x, strs_view_append w x, List.map_cons, List.map_nil]

theorem val_length (σ : St α K) : σ.val.ops.length = σ.ops.length := by simp [St.val]

/-- Adding one live string. -/
theorem addRefTo_spec {σ : St α K} (w : WF σ) (i : ℕ) (r : Ref α) (hr : σ.Live r) :
    WF (σ.addRefTo i r) ∧ (σ.addRefTo i r).val =
      { σ.val with ops := σ.val.ops.set i ((σ.val.op i).addStr (r.1, get σ.heap r)) } := by
  obtain ⟨h1, ⟨x, hx⟩, h3, h4, h5⟩ := addRef_spec σ.heap (σ.op i) r (w.op_bnd i) (w.bnd r hr) (w.op_uk i)
  have hc := addRef_cons σ.Live σ.heap (σ.op i) r w.bnd (w.op_bnd i) hr (w.op_uk i)
    (w.cons.mono (fun u hu => hu.elim id (WF.op_live i u)))
  unfold St.addRefTo
  refine ⟨w.set i _ _ (by rw [hx]; simp) h3 h4 hc, ?_⟩
  simp only
  rw [hx] at h1 ⊢
  rw [val_set w i x, h1, val_op]

/-- Adding an operator. -/
theorem addOp_spec {σ : St α K} (w : WF σ) (i j : ℕ) (hi : i < σ.ops.length) :
    WF (σ.addOp i j) ∧ (σ.addOp i j).val =
      { σ.val with ops := σ.val.ops.set i ((σ.val.op i).add (σ.val.op j)) } := by
  rw [addOp_eq σ i j hi (w.op_uk j)]
  obtain ⟨h1, ⟨x, hx⟩, h3, h4, h5⟩ := foldl_addRef_spec (σ.op j) σ.heap (σ.op i) (w.op_bnd i) (w.op_bnd j)
    (w.op_uk i)
  have hc := foldl_addRef_cons σ.Live (σ.op j) σ.heap (σ.op i) w.bnd (w.op_bnd i) (WF.op_live j) (w.op_uk i)
    (w.cons.mono (fun u hu => hu.elim id (WF.op_live i u)))
  refine ⟨w.set i _ _ (by rw [hx]; simp) (fun r hr => h3 r (clean_sub _ _ r hr)) (clean_UK _ _ h4)
    (hc.mono (fun u hu => hu.elim Or.inl (fun h => Or.inr (clean_sub _ _ u h)))), ?_⟩
  rw [hx] at h1 ⊢
  rw [val_set w i x, view_clean, h1, val_op, val_op]
  rfl

/-- A product creates only fresh objects. -/
theorem mulNew_spec (sm : Term α K → Term α K → Option (Term α K)) (S : Ref α → Prop) (h : List K)
    (A B : Dict α) (hS : ∀ u, S u → u.2 < h.length) (hc : ConsP S) :
    (mulNew sm h A B).map (fun p => view p.1 p.2) = OpD.mul sm (view h A) (view h B) ∧
    ∀ p, mulNew sm h A B = some p → (∃ x, p.1 = h ++ x) ∧ Bounded p.1 p.2 ∧ UK p.2 ∧
      (∀ u ∈ p.2, h.length ≤ u.2) ∧ ConsP (fun u => S u ∨ u ∈ p.2) := by
  unfold mulNew OpD.mul
  cases hm : (OpD.mulPairs (view h A) (view h B)).mapM (fun p => sm p.1 p.2) with
  | none => simp
  | some l =>
    obtain ⟨h1, ⟨x, hx⟩, h3, h4, h5, h6⟩ := foldl_addFresh_spec S l h [] hS (fun r hr => by simp at hr)
      (by simp [UK]) (hc.mono (fun u hu => by simpa using hu))
    simp only [Option.map_some, Option.some.injEq]
    refine ⟨?_, ?_⟩
    · rw [view_clean, h1]; rfl
    · rintro p rfl
      refine ⟨⟨x, hx⟩, fun r hr => h3 r (clean_sub _ _ r hr), clean_UK _ _ h4, ?_, ?_⟩
      · intro u hu
        rcases h5 u (clean_sub _ _ u hu) with h' | h'
        · simp at h'
        · exact h'
      · exact h6.mono (fun u hu => hu.elim Or.inl (fun h => Or.inr (clean_sub _ _ u h)))

theorem negRef_length (h : List K) (r : Ref α) : (negRef h r).length = h.length := by simp [negRef]

theorem foldl_negRef_length (l : Dict α) (h : List K) : (l.foldl negRef h).length = h.length := by
  induction l generalizing h with
  | nil => rfl
  | cons r l ih => rw [List.foldl_cons, ih, negRef_length]

theorem WF.neg {σ : St α K} (w : WF σ) (l : Dict α) : WF { σ with heap := l.foldl negRef σ.heap } :=
  ⟨w.uk, fun r hr => by rw [foldl_negRef_length]; exact w.bnd r hr, w.cons⟩

theorem get_negRef_ne (h : List K) (r u : Ref α) (hne : r.2 ≠ u.2) : get (negRef h r) u = get h u := by
  simp [get, negRef, List.getD_eq_getElem?_getD, List.getElem?_set_ne hne]

theorem get_negRef_eq (h : List K) (r u : Ref α) (he : r.2 = u.2) : get (negRef h r) u = -get h u := by
  unfold get negRef get
  rw [List.getD_eq_getElem?_getD, List.getD_eq_getElem?_getD, he]
  by_cases hl : u.2 < h.length
  · rw [List.getElem?_set_self hl]; simp [List.getD_eq_getElem?_getD]
  · rw [List.getElem?_eq_none (by simpa using hl)]; simp [List.getD_eq_getElem?_getD, List.getElem?_eq_none (not_lt.mp hl)]

/-- In-place negation of distinct objects. -/
theorem get_foldl_negRef (l : Dict α) (h : List K) (hn : (l.map (·.2)).Nodup) (u : Ref α) :
    get (l.foldl negRef h) u = if u.2 ∈ l.map (·.2) then -get h u else get h u := by
  induction l generalizing h with
  | nil => simp
  | cons r l ih =>
    simp only [List.map_cons, List.nodup_cons] at hn
    rw [List.foldl_cons, ih _ hn.2]
    by_cases h1 : r.2 = u.2
    · have h2 : u.2 ∉ l.map (·.2) := h1 ▸ hn.1
      rw [if_neg h2, get_negRef_eq _ _ _ h1, if_pos (by simp [h1])]
    · rw [get_negRef_ne _ _ _ h1]
      have : (u.2 ∈ (r :: l).map (·.2)) ↔ u.2 ∈ l.map (·.2) := by
        simp only [List.map_cons, List.mem_cons]
        constructor
        · rintro (h | h)
          · exact absurd h.symm h1
          · exact h
        · exact Or.inr
      simp only [List.map_cons] at this ⊢
      simp only [this]

theorem addr_nodup {σ : St α K} (w : WF σ) (i : ℕ) : ((σ.op i).map (·.2)).Nodup := by
  have hu := w.op_uk i
  unfold UK at hu
  rw [List.nodup_map_iff_inj_on (List.Nodup.of_map _ hu)]
  intro r hr r' hr' h
  exact List.inj_on_of_nodup_map hu hr hr' (w.cons r r' (WF.op_live i r hr) (WF.op_live i r' hr') h)

/-- Terms of a dictionary after the objects with addresses in `L` have been negated. -/
def viewNeg (L : List ℕ) (h : List K) (d : Dict α) : OpD α K :=
  d.map (fun r => (r.1, if r.2 ∈ L then -get h r else get h r))

/-- `A - B` for any sharing pattern: every object of `B` is negated wherever it is visible, then `B` is
added into `A`. -/
theorem subOp_spec {σ : St α K} (w : WF σ) (i j : ℕ) (hi : i < σ.ops.length) :
    WF (σ.subOp i j) ∧ (σ.subOp i j).val =
      { ops := (σ.ops.map (viewNeg ((σ.op j).map (·.2)) σ.heap)).set i
          ((viewNeg ((σ.op j).map (·.2)) σ.heap (σ.op i)).add (vneg (view σ.heap (σ.op j))))
        strs := σ.strs.map (fun r => (r.1, if r.2 ∈ (σ.op j).map (·.2) then -get σ.heap r
          else get σ.heap r)) } := by
  have hg : ∀ u : Ref α, get ((σ.op j).foldl negRef σ.heap) u =
      if u.2 ∈ (σ.op j).map (·.2) then -get σ.heap u else get σ.heap u :=
    fun u => get_foldl_negRef _ _ (addr_nodup w j) u
  have hv : ∀ d : Dict α, view ((σ.op j).foldl negRef σ.heap) d = viewNeg ((σ.op j).map (·.2)) σ.heap d := by
    intro d
    unfold view viewNeg
    simp only [hg]
  obtain ⟨h1, h2⟩ := addOp_spec (w.neg (σ.op j)) i j hi
  refine ⟨h1, ?_⟩
  unfold St.subOp
  rw [h2, val_op, val_op]
  simp only [St.val]
  have hopi : ∀ k, St.op { σ with heap := (σ.op j).foldl negRef σ.heap } k = σ.op k := fun _ => rfl
  rw [hopi, hopi, hv, hv]
  have hB : viewNeg ((σ.op j).map (·.2)) σ.heap (σ.op j) = vneg (view σ.heap (σ.op j)) := by
    unfold viewNeg vneg view
    rw [List.map_map]
    apply List.map_congr_left
    intro r hr
    simp only [Function.comp]
    rw [if_pos (List.mem_map_of_mem hr)]
  rw [hB, show view ((σ.op j).foldl negRef σ.heap) = _ from funext hv]
  simp only [hg]

/-- A single-string subtraction for any sharing pattern. -/
theorem subRefTo_spec {σ : St α K} (w : WF σ) (i : ℕ) (r : Ref α) (hr : σ.Live r) :
    WF (σ.subRefTo i r) ∧ (σ.subRefTo i r).val =
      { ops := (σ.ops.map (viewNeg [r.2] σ.heap)).set i
          ((viewNeg [r.2] σ.heap (σ.op i)).addStr (r.1, -get σ.heap r))
        strs := σ.strs.map (fun u => (u.1, if u.2 = r.2 then -get σ.heap u else get σ.heap u)) } := by
  have w' : WF { σ with heap := negRef σ.heap r } := w.neg [r]
  have hg : ∀ u : Ref α, get (negRef σ.heap r) u = if u.2 = r.2 then -get σ.heap u else get σ.heap u := by
    intro u
    by_cases h : u.2 = r.2
    · rw [if_pos h, get_negRef_eq _ _ _ h.symm]
    · rw [if_neg h, get_negRef_ne _ _ _ (fun h' => h h'.symm)]
  have hv : ∀ d : Dict α, view (negRef σ.heap r) d = viewNeg [r.2] σ.heap d := by
    intro d
    unfold view viewNeg
    simp only [hg, List.mem_singleton]
  obtain ⟨h1, h2⟩ := addRefTo_spec w' i r hr
  refine ⟨h1, ?_⟩
  unfold St.subRefTo
  rw [h2, val_op]
  simp only [St.val]
  have hopi : St.op { σ with heap := negRef σ.heap r } i = σ.op i := rfl
  rw [hopi, hv, hg, if_pos rfl, show view (negRef σ.heap r) = _ from funext hv]
  simp only [hg]

theorem viewNeg_disjoint (L : List ℕ) (h : List K) (d : Dict α) (hd : ∀ r ∈ d, r.2 ∉ L) :
    viewNeg L h d = view h d := by
  unfold viewNeg view
  apply List.map_congr_left
  intro r hr
  rw [if_neg (hd r hr)]

/-- The commutator shows the value-level result and changes nothing else. -/
theorem commutator_spec (sm : Term α K → Term α K → Option (Term α K)) {σ : St α K} (w : WF σ) (i j : ℕ) :
    (σ.commutator sm i j).map St.val =
      (OpD.mul sm (σ.val.op i) (σ.val.op j)).bind (fun P =>
        (OpD.mul sm (σ.val.op j) (σ.val.op i)).map (fun Q =>
          { σ.val with ops := σ.val.ops ++ [P.add (vneg Q)] })) ∧
    ∀ τ, σ.commutator sm i j = some τ → WF τ := by
  obtain ⟨m1, m2⟩ := mulNew_spec sm σ.Live σ.heap (σ.op i) (σ.op j) w.bnd w.cons
  unfold St.commutator
  rw [val_op, val_op, ← m1]
  cases hp : mulNew sm σ.heap (σ.op i) (σ.op j) with
  | none => simp
  | some p =>
    obtain ⟨⟨x, hx⟩, p3, p4, p5, p6⟩ := m2 p hp
    have w1 : WF { σ with heap := p.1, ops := σ.ops ++ [p.2] } :=
      w.push p.1 p.2 (by rw [hx]; simp) p3 p4 p6
    have hv1 : ∀ k, view p.1 (σ.op k) = view σ.heap (σ.op k) := by
      intro k; rw [hx, view_append _ _ _ (w.op_bnd k)]
    obtain ⟨n1, n2⟩ := mulNew_spec sm _ p.1 (σ.op j) (σ.op i) w1.bnd w1.cons
    rw [hv1, hv1] at n1
    simp only [Option.bind_some, Option.map_some, ← n1]
    cases hq : mulNew sm p.1 (σ.op j) (σ.op i) with
    | none => simp
    | some q =>
      obtain ⟨⟨y, hy⟩, q3, q4, q5, q6⟩ := n2 q hq
      have w2 := w1.push q.1 q.2 (by simp only; rw [hy]; simp) q3 q4 q6
      simp only [List.append_assoc, List.cons_append, List.nil_append] at w2
      set σ2 : St α K := { σ with heap := q.1, ops := σ.ops ++ [p.2, q.2] } with hσ2
      have hlen2 : σ2.ops.length = σ.ops.length + 2 := by simp [hσ2]
      obtain ⟨s1, s2⟩ := subOp_spec w2 σ.ops.length (σ.ops.length + 1) (by rw [hlen2]; omega)
      have hopn : σ2.op σ.ops.length = p.2 := by simp [St.op, hσ2, List.getD_eq_getElem?_getD]
      have hopn1 : σ2.op (σ.ops.length + 1) = q.2 := by simp [St.op, hσ2, List.getD_eq_getElem?_getD]
      rw [hopn, hopn1] at s2
      have hdis : ∀ r : Ref α, r.2 < p.1.length → r.2 ∉ q.2.map (·.2) := by
        intro r hr hmem
        obtain ⟨u, hu, hu2⟩ := List.mem_map.mp hmem
        have := q5 u hu
        have h' : u.2 = r.2 := hu2
        omega
      have hlow : ∀ r, σ.Live r → r.2 < p.1.length := by
        intro r hr
        have := w.bnd r hr
        rw [hx]; simp; omega
      have hvq : ∀ d : Dict α, Bounded p.1 d → view q.1 d = view p.1 d := by
        intro d hd; rw [hy, view_append _ _ _ hd]
      simp only [Option.map_some, Option.some.injEq]
      refine ⟨?_, ?_⟩
      · have e1 : (σ2.subOp σ.ops.length (σ.ops.length + 1)).val.ops.take (σ.ops.length + 1)
            = σ.val.ops ++ [(view p.1 p.2).add (vneg (view q.1 q.2))] := by
          rw [s2]
          simp only [hσ2, List.map_append, List.map_cons, List.map_nil]
          have f1 : σ.ops.map (viewNeg (q.2.map (·.2)) q.1) = σ.val.ops := by
            unfold St.val
            apply List.map_congr_left
            intro d hd
            rw [viewNeg_disjoint _ _ _ (fun r hr => hdis r (hlow r (Or.inr ⟨d, hd, hr⟩))), hvq d
              (fun r hr => hlow r (Or.inr ⟨d, hd, hr⟩)), hx, view_append _ _ _
              (fun r hr => w.bnd r (Or.inr ⟨d, hd, hr⟩))]
          have f2 : viewNeg (q.2.map (·.2)) q.1 p.2 = view p.1 p.2 := by
            rw [viewNeg_disjoint _ _ _ (fun r hr => hdis r (p3 r hr)), hvq p.2 p3]
          rw [f1, f2]
          have hl : σ.val.ops.length = σ.ops.length := val_length σ
          rw [List.set_append_right _ _ (by rw [hl])]
          rw [List.take_append, hl]
          simp [hl]
        have e2 : (σ2.subOp σ.ops.length (σ.ops.length + 1)).val.strs = σ.val.strs := by
          rw [s2]
          simp only [hσ2, St.val]
          apply List.map_congr_left
          intro r hr
          rw [if_neg (hdis r (hlow r (Or.inl hr))), hy, get_append _ _ _ (hlow r (Or.inl hr)), hx,
            get_append _ _ _ (w.bnd r (Or.inl hr))]
        show St.val _ = _
        rw [← e1, ← e2]
        simp only [St.val, List.map_take]
        rfl
      · rintro τ rfl
        refine ⟨fun d hd => s1.uk d (List.mem_of_mem_take hd), ?_, ?_⟩
        · rintro r (h | ⟨d, hd, h⟩)
          · exact s1.bnd r (Or.inl h)
          · exact s1.bnd r (Or.inr ⟨d, List.mem_of_mem_take hd, h⟩)
        · apply s1.cons.mono
          rintro r (h | ⟨d, hd, h⟩)
          · exact Or.inl h
          · exact Or.inr ⟨d, List.mem_of_mem_take hd, h⟩

/-- Every command other than a subtraction refines the value semantics. -/
theorem step_refines (sm : Term α K → Term α K → Option (Term α K)) {σ : St α K} (w : WF σ) (c : Cmd α K)
    (hc : c.isSub = false) :
    (step sm σ c).map St.val = vstep sm σ.val c ∧ ∀ τ, step sm σ c = some τ → WF τ := by
  have hl := val_length σ
  have hs : ∀ j : ℕ, σ.val.strs[j]? = σ.strs[j]?.map (fun r => (r.1, get σ.heap r)) := by
    intro j; simp [St.val]
  cases c with
  | newStr s c =>
    simp only [step, vstep, Option.map_some, Option.some.injEq]
    have hlive : ∀ u, St.Live { σ with heap := σ.heap ++ [c], strs := σ.strs ++ [(s, σ.heap.length)] } u →
        σ.Live u ∨ u = (s, σ.heap.length) := by
      rintro u (h | ⟨d, hd, h⟩)
      · rcases List.mem_append.mp h with h' | h'
        · exact Or.inl (Or.inl h')
        · simp only [List.mem_singleton] at h'; exact Or.inr h'
      · exact Or.inl (Or.inr ⟨d, hd, h⟩)
    refine ⟨?_, ?_⟩
    · simp only [St.val, map_view_append w [c], List.map_append, strs_view_append w [c], List.map_cons,
        List.map_nil, get_fresh]
    · rintro τ rfl
      refine ⟨w.uk, ?_, ?_⟩
      · intro r hr
        rcases hlive r hr with h | h
        · have := w.bnd r h; simp; omega
        · rw [h]; simp
      · intro r r' hr hr' he
        rcases hlive r hr with h | h <;> rcases hlive r' hr' with h' | h'
        · exact w.cons r r' h h' he
        · have := w.bnd r h; rw [h'] at he; simp only at he; omega
        · have := w.bnd r' h'; rw [h] at he; simp only at he; omega
        · rw [h, h']
  | newOp =>
    simp only [step, vstep, Option.map_some, Option.some.injEq]
    refine ⟨by simp [St.val, view], ?_⟩
    rintro τ rfl
    have := w.push σ.heap [] le_rfl (fun r hr => by simp at hr) (by simp [UK])
      (w.cons.mono (fun u hu => by simpa using hu))
    exact this
  | addStr i j =>
    simp only [step, vstep, hs, hl]
    cases hj : σ.strs[j]? with
    | none => simp
    | some r =>
      obtain ⟨h1, h2⟩ := addRefTo_spec w i r (Or.inl (List.mem_of_getElem? hj))
      simp only [Option.bind_some, Option.map_some]
      by_cases hi : i < σ.ops.length
      · simp only [hi, if_true, Option.map_some, Option.some.injEq]
        exact ⟨h2, by rintro τ rfl; exact h1⟩
      · simp [hi]
  | addOp i j =>
    simp only [step, vstep, hl]
    by_cases h : i < σ.ops.length ∧ j < σ.ops.length
    · obtain ⟨h1, h2⟩ := addOp_spec w i j h.1
      simp only [h, if_true, and_self, Option.map_some, Option.some.injEq]
      exact ⟨h2, by rintro τ rfl; exact h1⟩
    · simp [h]
  | mul i j =>
    simp only [step, vstep, hl]
    by_cases h : i < σ.ops.length ∧ j < σ.ops.length
    · obtain ⟨m1, m2⟩ := mulNew_spec sm σ.Live σ.heap (σ.op i) (σ.op j) w.bnd w.cons
      rw [if_pos h, if_pos h, val_op, val_op, ← m1]
      cases hp : mulNew sm σ.heap (σ.op i) (σ.op j) with
      | none => simp
      | some p =>
        obtain ⟨⟨x, hx⟩, p3, p4, p5, p6⟩ := m2 p hp
        simp only [Option.map_some, Option.some.injEq]
        refine ⟨?_, ?_⟩
        · rw [hx, val_push w]
        · rintro τ rfl
          exact w.push p.1 p.2 (by rw [hx]; simp) p3 p4 p6
    · simp [h]
  | comm i j =>
    simp only [step, vstep, hl]
    by_cases h : i < σ.ops.length ∧ j < σ.ops.length
    · rw [if_pos h, if_pos h]; exact commutator_spec sm w i j
    · simp [h]
  | subStr i j => simp [Cmd.isSub] at hc
  | subOp i j => simp [Cmd.isSub] at hc

/-- Every command keeps the heap well formed. -/
theorem step_wf (sm : Term α K → Term α K → Option (Term α K)) {σ : St α K} (w : WF σ) (c : Cmd α K)
    (τ : St α K) (h : step sm σ c = some τ) : WF τ := by
  by_cases hc : c.isSub = false
  · exact (step_refines sm w c hc).2 τ h
  · cases c with
    | subStr i j =>
      simp only [step] at h
      cases hj : σ.strs[j]? with
      | none => simp [hj] at h
      | some r =>
        simp only [hj, Option.bind_some] at h
        split at h
        · simp only [Option.some.injEq] at h
          rw [← h]; exact (subRefTo_spec w i r (Or.inl (List.mem_of_getElem? hj))).1
        · simp at h
    | subOp i j =>
      simp only [step] at h
      split at h
      · rename_i hij
        simp only [Option.some.injEq] at h
        rw [← h]; exact (subOp_spec w i j hij.1).1
      · simp at h
    | _ => simp [Cmd.isSub] at hc

theorem run_wf (sm : Term α K → Term α K → Option (Term α K)) (cs : List (Cmd α K)) {σ : St α K}
    (w : WF σ) (τ : St α K) (h : run sm σ cs = some τ) : WF τ := by
  induction cs generalizing σ with
  | nil => simp only [run, Option.some.injEq] at h; exact h ▸ w
  | cons c cs ih =>
    simp only [run] at h
    cases hs : step sm σ c with
    | none => simp [hs] at h
    | some ρ => simp only [hs, Option.bind_some] at h; exact ih (step_wf sm w c ρ hs) h

theorem run_refines (sm : Term α K → Term α K → Option (Term α K)) (cs : List (Cmd α K)) {σ : St α K}
    (w : WF σ) (hc : ∀ c ∈ cs, c.isSub = false) : (run sm σ cs).map St.val = vrun sm σ.val cs := by
  induction cs generalizing σ with
  | nil => rfl
  | cons c cs ih =>
    obtain ⟨h1, h2⟩ := step_refines sm w c (hc c (by simp))
    simp only [run, vrun, ← h1]
    cases hs : step sm σ c with
    | none => rfl
    | some ρ =>
      simp only [Option.bind_some, Option.map_some]
      exact ih (h2 ρ hs) (fun c' hc' => hc c' (by simp [hc']))

end HQCA.Heap
