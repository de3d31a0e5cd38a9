import Verif.Model.Compare
import Verif.Props.GraphColour

/-!
# C133: grouping with `simplify='comparison'`
-/

namespace HQCA.Props
open HQCA HQCA.Grouping HQCA.GraphColour HQCA.Compare

theorem colours_succ (N : ℕ) (c : ℕ → ℕ) : colours (N + 1) c = if c N ∈ colours N c then colours N c else colours N c ++ [c N] := by
  unfold colours
  rw [List.range_succ, List.map_append, List.foldl_append]
  rfl

theorem members_succ (N : ℕ) (c : ℕ → ℕ) (k : ℕ) : members (N + 1) c k = members N c k ++ if c N = k then [N] else [] := by
  unfold members
  rw [List.range_succ, List.filter_append]
  congr 1
  by_cases h : c N = k <;> simp [h]

/-- The attribute after a pass that starts afresh. -/
theorem addAll_nil (N : ℕ) (c : ℕ → ℕ) : addAll [] N c = (colours N c).map fun k => (k, members N c k) := by
  induction N with
  | zero => rfl
  | succ N ih =>
    have hs : addAll [] (N + 1) c = addVertex (addAll [] N c) N (c N) := by
      unfold addAll; rw [List.range_succ, List.foldl_append]; rfl
    rw [hs, ih, colours_succ]
    unfold addVertex
    have hk : ((colours N c).map fun k => (k, members N c k)).map (·.1) = colours N c := by
      rw [List.map_map]; exact List.map_id _
    rw [hk]
    by_cases h : c N ∈ colours N c
    · rw [if_pos h, if_pos h, List.map_map]
      refine List.map_congr_left fun k _ => ?_
      rw [members_succ]
      by_cases e : k = c N
      · simp [e]
      · simp [e, Ne.symm e]
    · rw [if_neg h, if_neg h, List.map_append]
      congr 1
      · refine List.map_congr_left fun k hk => ?_
        rw [members_succ, if_neg (fun e : c N = k => h (by rw [e]; exact hk)), List.append_nil]
      · have : members N c (c N) = [] := by
          unfold members
          rw [List.filter_eq_nil_iff]
          intro i hi
          rw [decide_eq_true_eq]
          intro e
          exact h ((mem_colours _ _ _).mpr ⟨i, List.mem_range.mp hi, e⟩)
        simp [members_succ, this]

theorem lookup_map_key (l : List ℕ) (f : ℕ → List ℕ) (v : ℕ) : (l.map fun k => (k, f k)).lookup v = if v ∈ l then some (f v) else none := by
  induction l with
  | nil => simp
  | cons a l ih =>
    rw [List.map_cons, List.lookup_cons]
    by_cases h : v = a
    · subst h; simp
    · rw [beq_eq_false_iff_ne.mpr h]
      simp only [ih, List.mem_cons, h, false_or]

/-- One fresh pass groups as `simplify_tomography` does before its check. -/
theorem groups_fresh (items : List PStr) (c : ℕ → ℕ) (hne : items ≠ []) :
    groups items (addAll [] items.length c) = (bases items c).bind fun ops => (paulis items c ops).map fun d => (ops, d) := by
  have hc : colours items.length c ≠ [] := by
    have : c 0 ∈ colours items.length c := (mem_colours _ _ _).mpr ⟨0, List.length_pos_iff.mpr hne, rfl⟩
    intro h; rw [h] at this; simp at this
  unfold groups
  rw [addAll_nil, if_neg (by simpa using hc), List.length_map]
  unfold bases paulis
  simp only [lookup_map_key]
  have e1 : ∀ v, ((if v ∈ colours items.length c then some (members items.length c v) else none).bind fun m => largest (m.map fun i => items.getD i []))
      = if v ∈ colours items.length c then largest ((members items.length c v).map fun i => items.getD i []) else none := by
    intro v; split <;> rfl
  simp only [e1]
  congr 1
  funext ops
  rw [List.mapM_map]
  rw [Option.map_map]
  rfl

/-- What `simplify_tomography` returns for several strings. -/
theorem simplify_parts (rel : Rel) (c : ℕ → ℕ) (items : List PStr) (hl : 2 ≤ items.length) (ops : List PStr) (d : List (PStr × PStr))
    (h : simplify rel c items = some (ops, d)) : bases items c = some ops ∧ paulis items c ops = some d := by
  unfold simplify at h
  split at h
  · simp at hl
  · split at h
    · cases h
    · split at h
      · cases h
      · rename_i ops' hb
        split at h
        · cases h
        · rename_i d' hp
          split at h
          · obtain ⟨rfl, rfl⟩ : ops' = ops ∧ d' = d := by simpa using h
            exact ⟨hb, hp⟩
          · cases h

theorem largest_single (s : PStr) : largest [s] = some s := by
  show (List.range s.length).mapM (fun j => firstNonI [s] j) = some s
  rw [OpD.mapM_total (g := fun j => s.getD j .I)]
  · congr 1
    refine List.ext_getElem (by simp) fun i h1 h2 => ?_
    simp [h2]
  · intro j hj
    have hj := List.mem_range.mp hj
    show (match s[j]? with | none => none | some .I => firstNonI [] j | some p => some p) = _
    rw [List.getElem?_eq_getElem hj, List.getD_eq_getElem?_getD, List.getElem?_eq_getElem hj]
    cases s[j] <;> rfl

/-- The passes, when each starts afresh. -/
theorem passes_fresh (items : List PStr) (E : List (ℕ × ℕ)) (R : List PStr × List (PStr × PStr))
    (hR : groups items (addAll [] items.length (sequential E items.length (ordering E items.length))) = some R) (ps : List (Method × Strategy))
    (hps : ∀ p ∈ ps, p = (.gt, .largestFirst)) : ∀ (D : Option Dict) (r : Option (List PStr × List (PStr × PStr))), ps ≠ [] ∨ r = some R → passes items E ps D r = some R := by
  induction ps with
  | nil => intro D r h; rcases h with h | h; exact absurd rfl h; exact h
  | cons p ps ih =>
    intro D r _
    obtain rfl := hps p (by simp)
    show ((some (some (addAll [] items.length (sequential E items.length (ordering E items.length)))) : Option (Option Dict)).bind fun D' => D'.bind fun d =>
      (groups items d).bind fun r => passes items E ps (some d) (some r)) = _
    rw [Option.bind_some, Option.bind_some, hR, Option.bind_some]
    exact ih (fun q hq => hps q (by simp [hq])) _ _ (Or.inr rfl)

/-- **C133, partial.**  For at least one string, all of one length, and the relation `qwc`: when every pass uses graph_tool with the largest first, the comparison returns the
grouping of `simplify_tomography`, and every string requested can be read off exactly one of the bases measured. -/
theorem C133_partial (ps : List (Method × Strategy)) (hne : ps ≠ []) (hps : ∀ p ∈ ps, p = (.gt, .largestFirst)) (items : List PStr) (hi : items ≠ []) (n : ℕ)
    (hn : ∀ s ∈ items, s.length = n) :
    ∃ ops d, compare ps .qwc items = some (ops, d) ∧ simplifyWith .gt .largestFirst .qwc items = some (ops, d) ∧
      (∀ s ∈ items, ∃! b, (s, b) ∈ d) ∧ (∀ s b, (s, b) ∈ d → s ∈ items ∧ b ∈ ops ∧ Recoverable s b) := by
  obtain ⟨ops, d, e1, e2, e3, -⟩ := C126_circuits_partial items n hn
  refine ⟨ops, d, ?_, e1, e2, e3⟩
  obtain ⟨E, hE, -⟩ := edges_spec items n hn
  unfold Compare.compare
  rw [hE, Option.bind_some]
  refine passes_fresh items E _ ?_ ps hps _ _ (Or.inl hne)
  rw [groups_fresh items _ hi]
  unfold simplifyWith at e1
  split at e1
  · rename_i op
    obtain ⟨rfl, rfl⟩ : [op] = ops ∧ [(op, op)] = d := by simpa using e1
    have hE' : E = [] := by simpa [edges, visited] using hE.symm
    subst hE'
    have hc : sequential [] 1 (ordering [] 1) 0 = 0 := by
      have : ordering [] 1 = [0] := by simp [ordering]
      rw [this]; decide
    have hcol : colours 1 (sequential [] 1 (ordering [] 1)) = [0] := by simp [colours, hc]
    have hmem : members 1 (sequential [] 1 (ordering [] 1)) 0 = [0] := by simp [members, hc]
    show ((bases [op] (sequential [] 1 (ordering [] 1))).bind _) = _
    have hb : bases [op] (sequential [] 1 (ordering [] 1)) = some [op] := by
      unfold bases
      simp [hcol, hmem, largest_single, List.range_succ]
    rw [hb, Option.bind_some]
    have hp : paulis [op] (sequential [] 1 (ordering [] 1)) [op] = some [(op, op)] := by
      unfold paulis
      simp [hcol, hmem, OpD.ofList, OpD.hasKey]
    exact (congrArg (Option.map fun d => ([op], d)) hp).trans rfl
  · rw [hE, Option.bind_some] at e1
    have e1' : simplify .qwc (sequential E items.length (ordering E items.length)) items = some (ops, d) := e1
    have hl : 2 ≤ items.length := by
      rename_i h
      rcases items with _ | ⟨a, _ | ⟨b, l⟩⟩
      · exact absurd rfl hi
      · exact absurd rfl (h a)
      · simp
    obtain ⟨h1, h2⟩ := simplify_parts _ _ items hl ops d e1'
    rw [h1, Option.bind_some, h2]
    rfl

/-- **C133** (negation).  With the default arguments the comparison always ends with an error; so does every list of passes whose first one is not graph_tool with the
largest first, and the empty list of passes. -/
theorem C133_raises (ps : List (Method × Strategy)) (h : ps.head? ≠ some (.gt, .largestFirst)) (rel : Rel) (items : List PStr) : compare ps rel items = none := by
  unfold Compare.compare
  cases edges rel items with
  | none => rfl
  | some E =>
    rw [Option.bind_some]
    rcases ps with _ | ⟨⟨m, s⟩, ps⟩
    · rfl
    · unfold passes
      rcases m with _ | _
      · rfl
      · rcases s with _ | _ | _
        · show (if items.length = 0 then some none else none : Option (Option Dict)).bind _ = none
          split <;> rfl
        · show (if items.length = 0 then some (some []) else none : Option (Option Dict)).bind _ = none
          split <;> rfl
        · exact absurd rfl h

/-- **C133** (negation).  Unlike `simplify_tomography`, the comparison does not check its result: with the relation `mc` it returns a basis from which one of the strings cannot
be read. -/
theorem C133_mc_fails : ∃ (items : List PStr) (ops : List PStr) (d : List (PStr × PStr)) (s b : PStr),
    compare [(.gt, .largestFirst)] .mc items = some (ops, d) ∧ s ∈ items ∧ (∀ b', (s, b') ∈ d → b' = b) ∧ (s, b) ∈ d ∧ ¬ Recoverable s b := by
  refine ⟨[[.X, .X], [.Y, .Y]], [[.X, .X]], [([.X, .X], [.X, .X]), ([.Y, .Y], [.X, .X])], [.Y, .Y], [.X, .X], ?_, by simp, by simp, by simp, ?_⟩
  · have hE : edges .mc [[.X, .X], [.Y, .Y]] = some [] := by decide +kernel
    have ho : ordering [] 2 = [0, 1] := by simp [ordering, degree, List.range_succ, List.mergeSort]
    unfold Compare.compare
    rw [hE, Option.bind_some]
    refine passes_fresh _ _ _ ?_ _ (by simp) _ _ (Or.inl (by simp))
    show groups _ (addAll [] 2 (sequential [] 2 (ordering [] 2))) = _
    rw [ho]
    decide +kernel
  · rintro ⟨-, h⟩
    have := h (.Y, .X) (by simp)
    simp at this

/-- **C133** (negation).  A second pass with the strategy `default` adds to the colours of the first, and the bases it returns do not serve the strings assigned to them. -/
theorem C133_second_fails : ∃ (items : List PStr) (ops : List PStr) (d : List (PStr × PStr)) (s b : PStr),
    compare [(.gt, .largestFirst), (.gt, .dflt)] .qwc items = some (ops, d) ∧ s ∈ items ∧ (∀ b', (s, b') ∈ d → b' = b) ∧ (s, b) ∈ d ∧ ¬ Recoverable s b := by
  refine ⟨[[.X, .I], [.Z, .Z], [.I, .X]], [[.Z, .Z], [.X, .X]], [([.X, .I], [.Z, .Z]), ([.I, .X], [.Z, .Z]), ([.Z, .Z], [.Z, .Z])], [.X, .I], [.Z, .Z], ?_, by simp, by simp,
    by simp, ?_⟩
  · have hE : edges .qwc [[.X, .I], [.Z, .Z], [.I, .X]] = some [(0, 1), (1, 2)] := by decide +kernel
    have ho : ordering [(0, 1), (1, 2)] 3 = [1, 0, 2] := by simp [ordering, degree, List.range_succ, List.mergeSort]
    unfold Compare.compare
    rw [hE, Option.bind_some]
    show ((some (some (addAll [] 3 (sequential [(0, 1), (1, 2)] 3 (ordering [(0, 1), (1, 2)] 3)))) : Option (Option Dict)).bind fun D' => D'.bind fun d =>
      (groups [[.X, .I], [.Z, .Z], [.I, .X]] d).bind fun r => passes [[.X, .I], [.Z, .Z], [.I, .X]] [(0, 1), (1, 2)] [(.gt, .dflt)] (some d) (some r)) = _
    rw [ho]
    decide +kernel
  · rintro ⟨-, h⟩
    have := h (.X, .Z) (by simp)
    simp at this

/-- Two passes on three strings, one of which clashes with both others. -/
example : ∃ ops d, compare [(.gt, .largestFirst), (.gt, .largestFirst)] .qwc [[.X, .I], [.Z, .Z], [.I, .X]] = some (ops, d) ∧
    ∀ s b, (s, b) ∈ d → Recoverable s b := by
  obtain ⟨ops, d, h1, -, -, h2⟩ := C133_partial [(.gt, .largestFirst), (.gt, .largestFirst)] (by simp) (by simp) [[.X, .I], [.Z, .Z], [.I, .X]] (by simp) 2 (by simp)
  exact ⟨ops, d, h1, fun s b h => (h2 s b h).2.2⟩

end HQCA.Props
