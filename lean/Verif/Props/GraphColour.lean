import Verif.Model.GraphColour
import Verif.Props.Grouping
import Verif.Props.StateTomo
import Mathlib.Data.List.Sort

/-!
# C126: grouping with the default colouring
-/

namespace HQCA
namespace Props
open Grouping GraphColour

/-- Two vertices are joined. -/
def Joined (E : List (ℕ × ℕ)) (v w : ℕ) : Prop := (v, w) ∈ E ∨ (w, v) ∈ E

theorem marked_iff (E : List (ℕ × ℕ)) (c : ℕ → ℕ) (v j : ℕ) : marked E c v j = true ↔ ∃ w, Joined E v w ∧ c w = j := by
  unfold marked Joined
  rw [List.any_eq_true]
  constructor
  · rintro ⟨⟨a, b⟩, he, h⟩
    simp only [Bool.or_eq_true, Bool.and_eq_true, decide_eq_true_eq] at h
    rcases h with ⟨rfl, rfl⟩ | ⟨rfl, rfl⟩
    · exact ⟨b, Or.inl he, rfl⟩
    · exact ⟨a, Or.inr he, rfl⟩
  · rintro ⟨w, h | h, rfl⟩
    · exact ⟨_, h, by simp⟩
    · exact ⟨_, h, by simp⟩

/-- What holds after the vertices `l` have been coloured. -/
structure Inv (E : List (ℕ × ℕ)) (N : ℕ) (l : List ℕ) (s : (ℕ → ℕ) × ℕ) : Prop where
  few : s.2 ≤ l.length
  lt : ∀ w ∈ l, s.1 w < s.2
  rest : ∀ w, w ∉ l → s.1 w = N - 1
  proper : ∀ v ∈ l, ∀ w ∈ l, Joined E v w → s.1 v ≠ s.1 w
  least : ∀ v ∈ l, ∀ j < s.1 v, ∃ w ∈ l, Joined E v w ∧ s.1 w = j
  pos : ∀ i v, l[i]? = some v → s.1 v ≤ i
  onto : ∀ j < s.2, ∃ w ∈ l, s.1 w = j

theorem joined_symm {E : List (ℕ × ℕ)} {v w : ℕ} (h : Joined E v w) : Joined E w v := h.symm

theorem assign_inv (E : List (ℕ × ℕ)) (N : ℕ) (hE : ∀ v, ¬ Joined E v v) (l : List ℕ) (u : ℕ) (hu : u ∉ l) (hl : l.length < N) (s : (ℕ → ℕ) × ℕ)
    (h : Inv E N l s) : Inv E N (l ++ [u]) (assign E s u) := by
  obtain ⟨c, mx⟩ := s
  unfold assign
  dsimp only
  obtain ⟨j, hj⟩ : ∃ j, ((List.range mx).find? fun j => !marked E c u j).getD mx = j := ⟨_, rfl⟩
  rw [hj]
  have few := h.few
  dsimp only at few
  have hle : j ≤ mx := by
    rw [← hj]
    cases hf : (List.range mx).find? fun j => !marked E c u j with
    | none => exact le_refl _
    | some k =>
      have := List.mem_of_find?_eq_some hf
      rw [List.mem_range] at this
      exact this.le
  have hbelow : ∀ i < j, ∃ w ∈ l, Joined E u w ∧ c w = i := by
    intro i hi
    have hm : marked E c u i = true := by
      by_contra hm
      cases hf : (List.range mx).find? fun j => !marked E c u j with
      | none =>
        have := List.find?_eq_none.mp hf i (List.mem_range.mpr (by omega))
        simp [hm] at this
      | some k =>
        rw [hf] at hj
        have hk : k = j := hj
        subst hk
        rw [List.find?_range_eq_some] at hf
        have := hf.2.2 i hi
        simp [hm] at this
    obtain ⟨w, hw, e⟩ := (marked_iff _ _ _ _).mp hm
    refine ⟨w, ?_, hw, e⟩
    by_contra hwl
    have := h.rest w hwl
    dsimp only at this
    omega
  have hfree : ∀ w ∈ l, Joined E u w → c w ≠ j := by
    intro w hw hjn e
    have hc := h.lt w hw
    dsimp only at hc
    have hm := (marked_iff E c u j).mpr ⟨w, hjn, e⟩
    cases hf : (List.range mx).find? fun j => !marked E c u j with
    | none =>
      rw [hf] at hj
      have : mx = j := hj
      omega
    | some k =>
      rw [hf] at hj
      have hk : k = j := hj
      subst hk
      have := List.find?_some hf
      simp [hm] at this
  have hup : ∀ w ∈ l, Function.update c u j w = c w := by
    intro w hw
    exact Function.update_of_ne (fun e : w = u => hu (e ▸ hw)) _ _
  have hself : Function.update c u j u = j := Function.update_self _ _ _
  have hmx : mx ≤ (if j = mx then mx + 1 else mx) := by split_ifs <;> omega
  constructor
  · dsimp only
    rw [List.length_append, List.length_singleton]
    split_ifs <;> omega
  · intro w hw
    dsimp only
    rcases List.mem_append.mp hw with hw | hw
    · rw [hup w hw]
      exact lt_of_lt_of_le (h.lt w hw) hmx
    · rw [List.mem_singleton.mp hw, hself]
      split_ifs <;> omega
  · intro w hw
    rw [List.mem_append, List.mem_singleton] at hw
    push Not at hw
    dsimp only
    rw [Function.update_of_ne hw.2]
    exact h.rest w hw.1
  · intro v hv w hw hvw
    dsimp only
    rcases List.mem_append.mp hv with hv | hv <;> rcases List.mem_append.mp hw with hw | hw
    · rw [hup v hv, hup w hw]
      exact h.proper v hv w hw hvw
    · rw [List.mem_singleton.mp hw] at hvw ⊢
      rw [hup v hv, hself]
      exact hfree v hv (joined_symm hvw)
    · rw [List.mem_singleton.mp hv] at hvw ⊢
      rw [hup w hw, hself]
      exact (hfree w hw hvw).symm
    · rw [List.mem_singleton.mp hv, List.mem_singleton.mp hw] at hvw
      exact absurd hvw (hE u)
  · intro v hv i hi
    dsimp only at hi ⊢
    rcases List.mem_append.mp hv with hv | hv
    · rw [hup v hv] at hi
      obtain ⟨w, hw, a, b⟩ := h.least v hv i hi
      exact ⟨w, List.mem_append_left _ hw, a, by rw [hup w hw]; exact b⟩
    · rw [List.mem_singleton.mp hv, hself] at hi
      rw [List.mem_singleton.mp hv]
      obtain ⟨w, hw, a, b⟩ := hbelow i hi
      exact ⟨w, List.mem_append_left _ hw, a, by rw [hup w hw]; exact b⟩
  · intro i v hi
    dsimp only
    by_cases hil : i < l.length
    · rw [List.getElem?_append_left hil] at hi
      have hv := List.mem_of_getElem? hi
      rw [hup v hv]
      exact h.pos i v hi
    · rw [List.getElem?_append_right (by omega)] at hi
      have hv : v = u := by
        have := List.mem_of_getElem? hi
        exact List.mem_singleton.mp this
      rw [hv, hself]
      omega
  · intro i hi
    dsimp only at hi ⊢
    by_cases hij : i = j
    · exact ⟨u, by simp, by rw [hself, hij]⟩
    · have : i < mx := by
        split_ifs at hi <;> omega
      obtain ⟨w, hw, e⟩ := h.onto i this
      exact ⟨w, List.mem_append_left _ hw, by rw [hup w hw]; exact e⟩

theorem foldl_inv (E : List (ℕ × ℕ)) (N : ℕ) (hE : ∀ v, ¬ Joined E v v) (l : List ℕ) : l.Nodup → l.length ≤ N →
    Inv E N l (l.foldl (assign E) (fun _ => N - 1, 0)) := by
  induction l using List.reverseRecOn with
  | nil => intro _ _; exact ⟨le_refl _, by simp, fun _ _ => rfl, by simp, by simp, by simp, by simp⟩
  | append_singleton l u ih =>
    intro hn hl
    rw [List.length_append, List.length_singleton] at hl
    rw [List.foldl_append, List.foldl_cons, List.foldl_nil]
    rw [List.nodup_append] at hn
    exact assign_inv E N hE l u (fun h => hn.2.2 u h u (by simp) rfl) (by omega) _ (ih hn.1 (by omega))

theorem ordering_perm (E : List (ℕ × ℕ)) (N : ℕ) : (ordering E N).Perm (List.range N) := List.mergeSort_perm _ _

theorem ordering_sorted (E : List (ℕ × ℕ)) (N : ℕ) : (ordering E N).Pairwise fun i j => degree E j ≤ degree E i := by
  have := List.pairwise_mergeSort (le := fun i j => decide (degree E j ≤ degree E i)) (fun a b c h1 h2 => by
    simp only [decide_eq_true_eq] at *; omega) (fun a b => by simp only [Bool.or_eq_true, decide_eq_true_eq]; omega) (List.range N)
  exact this.imp (fun h => by simpa using h)

/-- A colour is not above the number of edges at the vertex. -/
theorem colour_le_degree (E : List (ℕ × ℕ)) (N : ℕ) (l : List ℕ) (s : (ℕ → ℕ) × ℕ) (h : Inv E N l s) (v : ℕ) (hv : v ∈ l) : s.1 v ≤ degree E v := by
  unfold degree
  have hsub : Finset.range (s.1 v) ⊆ ((E.filter fun e => e.1 = v || e.2 = v).map fun e => if e.1 = v then s.1 e.2 else s.1 e.1).toFinset := by
    intro j hj
    obtain ⟨w, hw, hj1, hj2⟩ := h.least v hv j (Finset.mem_range.mp hj)
    rw [List.mem_toFinset, List.mem_map]
    rcases hj1 with he | he
    · exact ⟨_, List.mem_filter.mpr ⟨he, by simp⟩, by simpa using hj2⟩
    · refine ⟨_, List.mem_filter.mpr ⟨he, by simp⟩, ?_⟩
      dsimp only
      split_ifs with e
      · rw [← hj2, e]
      · exact hj2
  have := (Finset.card_le_card hsub).trans (List.toFinset_card_le _)
  rwa [Finset.card_range, List.length_map] at this

/-- **C126** (colouring).  The default strategy, on every graph without loops: joined vertices get different colours, the colours have no gaps, no vertex could be given a
smaller colour (each smaller one is taken by a neighbour), and `t` colours are enough whenever at most `t` vertices have `t` or more edges. -/
theorem C126_colouring_partial (E : List (ℕ × ℕ)) (N : ℕ) (hE : ∀ e ∈ E, e.1 ≠ e.2 ∧ e.1 < N ∧ e.2 < N) :
    ∃ c, color .gt .largestFirst E N = some c ∧ Proper E N c ∧ (∀ v < N, ∀ j < c v, ∃ w < N, Joined E v w ∧ c w = j) ∧
      ∀ t, ((List.range N).filter fun v => t ≤ degree E v).length ≤ t → ∀ v < N, c v < t := by
  refine ⟨_, rfl, ?_⟩
  have hirr : ∀ v, ¬ Joined E v v := by
    rintro v (h | h) <;> exact (hE _ h).1 rfl
  have hp := ordering_perm E N
  have hlen : (ordering E N).length = N := by rw [hp.length_eq, List.length_range]
  have hmem : ∀ v, v ∈ ordering E N ↔ v < N := fun v => by rw [hp.mem_iff, List.mem_range]
  have inv := foldl_inv E N hirr (ordering E N) (hp.nodup_iff.mpr List.nodup_range) hlen.le
  refine ⟨⟨?_, ((ordering E N).foldl (assign E) (fun _ => N - 1, 0)).2, fun v => ⟨fun hv => ?_, ?_⟩⟩, ?_, ?_⟩
  · intro e he
    exact inv.proper e.1 ((hmem _).mpr (hE e he).2.1) e.2 ((hmem _).mpr (hE e he).2.2) (Or.inl he)
  · obtain ⟨w, hw, e⟩ := inv.onto v hv
    exact ⟨w, (hmem _).mp hw, e⟩
  · rintro ⟨i, hi, rfl⟩
    exact inv.lt i ((hmem _).mpr hi)
  · intro v hv j hj
    obtain ⟨w, hw, a, b⟩ := inv.least v ((hmem _).mpr hv) j hj
    exact ⟨w, (hmem _).mp hw, a, b⟩
  · intro t ht v hv
    obtain ⟨i, hi, hiv⟩ := List.mem_iff_getElem.mp ((hmem _).mpr hv)
    have hpos := inv.pos i v (by rw [List.getElem?_eq_getElem hi, hiv])
    by_cases hit : i < t
    · exact lt_of_le_of_lt hpos hit
    · have hdeg : degree E v < t := by
        by_contra hd
        push Not at hd hit
        have hall : ∀ x ∈ (ordering E N).take (i + 1), t ≤ degree E x := by
          intro x hx
          obtain ⟨k, hk, hkx⟩ := List.mem_iff_getElem.mp hx
          rw [List.length_take] at hk
          rw [List.getElem_take] at hkx
          rcases Nat.lt_or_ge k i with hki | hki
          · have := List.pairwise_iff_getElem.mp (ordering_sorted E N) k i (by omega) hi hki
            rw [hkx, hiv] at this
            omega
          · have : k = i := by omega
            subst this
            rw [← hkx, hiv]
            exact hd
        have h1 : ((ordering E N).filter fun v => t ≤ degree E v).length ≤ t := by
          rw [(hp.filter _).length_eq]
          exact ht
        have h2 : (((ordering E N).take (i + 1)).filter fun v => decide (t ≤ degree E v)).length = i + 1 := by
          rw [List.filter_eq_self.mpr (fun x hx => by simpa using hall x hx), List.length_take]
          omega
        have h3 := ((List.take_sublist (i + 1) (ordering E N)).filter fun v => decide (t ≤ degree E v)).length_le
        omega
      exact lt_of_le_of_lt (colour_le_degree E N _ _ inv v ((hmem _).mpr hv)) hdeg

/-- Two strings that no single-qubit basis measures together: on some qubit both have a letter other than `I`, and not the same one. -/
def Clash (s t : PStr) : Prop := ∃ p ∈ s.zip t, p.1 ≠ .I ∧ p.2 ≠ .I ∧ p.1 ≠ p.2

instance (s t : PStr) : Decidable (Clash s t) := inferInstanceAs (Decidable (∃ p ∈ s.zip t, _))

theorem qwc_clash (s t : PStr) (h : Reduce.qwc s t = some false) : Clash s t := by
  induction s generalizing t with
  | nil => simp [Reduce.qwc] at h
  | cons a s ih =>
    cases t with
    | nil => simp [Reduce.qwc] at h
    | cons b t =>
      unfold Reduce.qwc at h
      split_ifs at h with h1 h2
      · obtain ⟨p, hp, q⟩ := ih t h
        exact ⟨p, List.mem_cons_of_mem _ hp, q⟩
      · obtain ⟨p, hp, q⟩ := ih t h
        exact ⟨p, List.mem_cons_of_mem _ hp, q⟩
      · push Not at h1
        exact ⟨(a, b), by simp, h1.1, h1.2, h2⟩

theorem clash_symm {s t : PStr} (h : Clash s t) : Clash t s := by
  obtain ⟨p, hp, h1, h2, h3⟩ := h
  refine ⟨p.swap, ?_, h2, h1, fun e => h3 e.symm⟩
  rw [← List.zip_swap, List.mem_map]
  exact ⟨p, hp, rfl⟩

/-- With how many of the strings the `i`-th one clashes. -/
def clashes (items : List PStr) (i : ℕ) : ℕ := ((List.range items.length).filter fun j => decide (Clash (items.getD i []) (items.getD j []))).length

theorem mapM_fst {α β : Type} (g : α → Option β) (A : List α) (l : List (α × β)) (h : A.mapM (fun p => (g p).map fun r => (p, r)) = some l) :
    l.map (·.1) = A ∧ ∀ x ∈ l, g x.1 = some x.2 := by
  induction A generalizing l with
  | nil => simp at h; subst h; simp
  | cons a A ih =>
    rw [List.mapM_cons] at h
    cases hg : g a with
    | none => rw [hg] at h; cases h
    | some r =>
      cases hm : A.mapM (fun p => (g p).map fun r => (p, r)) with
      | none => rw [hg, hm] at h; cases h
      | some l' =>
        rw [hg, hm] at h
        cases h
        obtain ⟨a1, a2⟩ := ih l' hm
        refine ⟨by simp [a1], ?_⟩
        intro x hx
        rcases List.mem_cons.mp hx with rfl | hx
        · exact hg
        · exact a2 x hx

theorem visited_nodup (N : ℕ) : (visited N).Nodup := by
  unfold visited
  rw [List.nodup_flatMap]
  refine ⟨fun j _ => List.nodup_range.map (fun a b h => by simpa using h), ?_⟩
  refine List.nodup_range.imp ?_
  intro a b hab x h1 h2
  obtain ⟨i, _, rfl⟩ := List.mem_map.mp h1
  obtain ⟨k, _, e⟩ := List.mem_map.mp h2
  exact hab (by simpa using (congrArg Prod.snd e).symm)

/-- The edges are between strings that clash, and occur once. -/
theorem edges_clash (items : List PStr) (E : List (ℕ × ℕ)) (h : edges .qwc items = some E) :
    E.Nodup ∧ ∀ e ∈ E, e.1 < e.2 ∧ e.2 < items.length ∧ Clash (items.getD e.1 []) (items.getD e.2 []) := by
  unfold edges at h
  obtain ⟨l, hl, rfl⟩ := Option.map_eq_some_iff.mp h
  obtain ⟨a1, a2⟩ := mapM_fst _ _ _ hl
  have hsub : ((l.filter (·.2)).map (·.1)).Sublist (visited items.length) := by
    rw [← a1]
    exact List.filter_sublist.map _
  refine ⟨hsub.nodup (visited_nodup _), ?_⟩
  intro e he
  have hv := hsub.subset he
  obtain ⟨x, hx, rfl⟩ := List.mem_map.mp he
  rw [List.mem_filter] at hx
  have hq := a2 x hx.1
  unfold visited at hv
  obtain ⟨j, hj, hv⟩ := List.mem_flatMap.mp hv
  obtain ⟨i, hi, e⟩ := List.mem_map.mp hv
  rw [← e]
  refine ⟨List.mem_range.mp hi, List.mem_range.mp hj, ?_⟩
  rw [← e, hx.2] at hq
  unfold related at hq
  dsimp only at hq
  obtain ⟨r, hr, hr2⟩ := Option.map_eq_some_iff.mp hq
  exact qwc_clash _ _ (by rw [hr]; simpa using hr2)

theorem degree_le_clashes (items : List PStr) (E : List (ℕ × ℕ)) (h : edges .qwc items = some E) (v : ℕ) : degree E v ≤ clashes items v := by
  obtain ⟨hn, hc⟩ := edges_clash items E h
  unfold degree clashes
  rw [← List.length_map (f := fun e : ℕ × ℕ => if e.1 = v then e.2 else e.1)]
  refine (List.Nodup.subperm ?_ ?_).length_le
  · refine (hn.filter _).map_on ?_
    intro x hx y hy e
    rw [List.mem_filter] at hx hy
    have x1 := (hc x hx.1).1
    have y1 := (hc y hy.1).1
    have x2 := hx.2
    have y2 := hy.2
    simp only [Bool.or_eq_true, decide_eq_true_eq] at x2 y2
    obtain ⟨a, b⟩ := x
    obtain ⟨c, d⟩ := y
    dsimp only at *
    split_ifs at e <;> simp only [Prod.mk.injEq] <;> omega
  · intro w hw
    obtain ⟨⟨a, b⟩, hx, rfl⟩ := List.mem_map.mp hw
    rw [List.mem_filter] at hx
    obtain ⟨h1, h2, h3⟩ := hc _ hx.1
    have x2 := hx.2
    simp only [Bool.or_eq_true, decide_eq_true_eq] at x2
    dsimp only at *
    rw [List.mem_filter, List.mem_range]
    split_ifs with e
    · exact ⟨h2, by subst e; simpa using h3⟩
    · rcases x2 with x2 | x2
      · exact absurd x2 e
      · exact ⟨by omega, by subst x2; simpa using clash_symm h3⟩

/-- The default colouring is what the tomography asks for. -/
theorem colouring_default : ColouringOK dfltCol := by
  intro items E hE
  unfold dfltCol
  rw [hE, Option.getD_some]
  obtain ⟨c, h1, h2, -⟩ := C126_colouring_partial E items.length (fun e he => by
    obtain ⟨a, b, -⟩ := (edges_clash items E hE).2 e he
    omega)
  cases h1
  exact h2

theorem bases_count (items : List PStr) (col : ℕ → ℕ) (ops : List PStr) (d : List (PStr × PStr)) (rel : Rel) (h : simplify rel col items = some (ops, d))
    (hl : items.length ≠ 1) : ops.length = (colours items.length col).length := by
  unfold simplify at h
  split at h
  · exact absurd rfl hl
  · split at h
    · cases h
    · split at h
      · cases h
      · rename_i ops' hb
        split at h
        · cases h
        · split_ifs at h
          cases h
          unfold bases at hb
          have := (mapM_spec _ _ _ hb).length_eq
          rw [List.length_range] at this
          exact this.symm

/-- **C126** (circuits).  For strings of one length, the default grouping returns; every string requested can be read off exactly one of the bases measured; and `t` circuits
are enough whenever at most `t` of the strings clash with `t` or more of the others. -/
theorem C126_circuits_partial (items : List PStr) (n : ℕ) (hn : ∀ s ∈ items, s.length = n) :
    ∃ ops d, simplifyWith .gt .largestFirst .qwc items = some (ops, d) ∧
      (∀ s ∈ items, ∃! b, (s, b) ∈ d) ∧ (∀ s b, (s, b) ∈ d → s ∈ items ∧ b ∈ ops ∧ Recoverable s b) ∧
      ∀ t, 0 < t → ((List.range items.length).filter fun i => t ≤ clashes items i).length ≤ t → ops.length ≤ t := by
  obtain ⟨E, hE, himp⟩ := C25_complete_qwc (dfltCol items) items n hn
  obtain ⟨ops, d, hs⟩ := himp (colouring_default items E hE)
  obtain ⟨s1, s2⟩ := C25_sound .qwc _ items n hn ops d hs
  have hcol : dfltCol items = sequential E items.length (ordering E items.length) := by
    unfold dfltCol
    rw [hE, Option.getD_some]
  refine ⟨ops, d, ?_, s1, s2, ?_⟩
  · unfold simplifyWith
    split
    · exact hs
    · rw [hE, Option.bind_some]
      show (some _).bind _ = _
      rw [Option.bind_some, ← hcol]
      exact hs
  · intro t ht hc
    by_cases hl : items.length = 1
    · obtain ⟨a, rfl⟩ := List.length_eq_one_iff.mp hl
      unfold simplify at hs
      cases hs
      exact ht
    · rw [bases_count items _ ops d .qwc hs hl]
      obtain ⟨c, h1, -, -, h4⟩ := C126_colouring_partial E items.length (fun e he => by
        obtain ⟨a, b, -⟩ := (edges_clash items E hE).2 e he
        omega)
      cases h1
      have hlt := h4 t (le_trans (List.Sublist.length_le (List.monotone_filter_right _ (fun v hv => by
        simp only [decide_eq_true_eq] at hv ⊢
        exact hv.trans (degree_le_clashes items E hE v)))) hc)
      rw [← hcol] at hlt
      have hsub : colours items.length (dfltCol items) ⊆ List.range t := by
        intro k hk
        obtain ⟨i, hi, rfl⟩ := (mem_colours _ _ _).mp hk
        exact List.mem_range.mpr (hlt i hi)
      have := ((colours_nodup items.length (dfltCol items)).subperm hsub).length_le
      rwa [List.length_range] at this

/-- **C126** (lower bound).  Whatever the relation and the colouring: strings that clash pairwise need as many circuits. -/
theorem C126_lower (rel : Rel) (col : ℕ → ℕ) (items : List PStr) (n : ℕ) (hn : ∀ s ∈ items, s.length = n) (ops : List PStr) (d : List (PStr × PStr))
    (h : simplify rel col items = some (ops, d)) (L : List PStr) (hL : ∀ s ∈ L, s ∈ items) (hc : L.Pairwise Clash) : L.length ≤ ops.length := by
  obtain ⟨s1, s2⟩ := C25_sound rel col items n hn ops d h
  have hex : ∀ s, ∃ b, s ∈ L → (s, b) ∈ d := by
    intro s
    by_cases hs : s ∈ L
    · obtain ⟨b, hb, -⟩ := s1 s (hL s hs)
      exact ⟨b, fun _ => hb⟩
    · exact ⟨[], fun h => absurd h hs⟩
  choose b hb using hex
  have hdiff : ∀ s t c, Recoverable s c → Recoverable t c → ¬ Clash s t := by
    rintro s t c ⟨l1, r1⟩ ⟨l2, r2⟩ ⟨p, hp, p1, p2, p3⟩
    obtain ⟨k, hk, e⟩ := List.getElem_of_mem hp
    rw [List.length_zip] at hk
    rw [List.getElem_zip] at e
    have q1 := r1 (s[k], c[k]) (List.mem_iff_getElem.mpr ⟨k, by rw [List.length_zip]; omega, List.getElem_zip⟩)
    have q2 := r2 (t[k], c[k]) (List.mem_iff_getElem.mpr ⟨k, by rw [List.length_zip]; omega, List.getElem_zip⟩)
    rw [← e] at p1 p2 p3
    dsimp only at *
    rcases q1 with q1 | q1
    · exact p1 q1
    · rcases q2 with q2 | q2
      · exact p2 q2
      · exact p3 (q1.trans q2.symm)
  have hnd : (L.map b).Nodup := by
    rw [List.Nodup, List.pairwise_map]
    refine hc.imp_of_mem ?_
    intro s t hs ht hst e
    refine hdiff s t (b s) (s2 _ _ (hb s hs)).2.2 ?_ hst
    rw [e]
    exact (s2 _ _ (hb t ht)).2.2
  have hsub : L.map b ⊆ ops := by
    intro x hx
    obtain ⟨s, hs, rfl⟩ := List.mem_map.mp hx
    exact (s2 _ _ (hb s hs)).2.1
  have := (hnd.subperm hsub).length_le
  rwa [List.length_map] at this

/-- **C126** (negation for the other strategies).  Every other method and strategy raises, for any list of at least two strings. -/
theorem C126_other_raise (m : Method) (s : Strategy) (h : ¬ (m = .gt ∧ s = .largestFirst)) (rel : Rel) (items : List PStr) (hl : 2 ≤ items.length) :
    simplifyWith m s rel items = none := by
  unfold simplifyWith
  split
  · simp at hl
  · cases edges rel items with
    | none => rfl
    | some E =>
      rw [Option.bind_some]
      have : color m s E items.length = none := by
        unfold color
        split
        · rfl
        · rfl
        · rw [if_neg (by omega)]
        · exact absurd ⟨rfl, rfl⟩ h
      rw [this]
      rfl

/-- Four strings on two qubits, one of which clashes with two others: two circuits are enough. -/
example : ∃ ops d, simplifyWith .gt .largestFirst .qwc [[.Z, .I], [.I, .Z], [.Z, .Z], [.X, .I]] = some (ops, d) ∧ ops.length ≤ 2 := by
  obtain ⟨ops, d, h, -, -, ht⟩ := C126_circuits_partial [[.Z, .I], [.I, .Z], [.Z, .Z], [.X, .I]] 2 (by decide)
  exact ⟨ops, d, h, ht 2 (by norm_num) (by decide)⟩

end Props
end HQCA
