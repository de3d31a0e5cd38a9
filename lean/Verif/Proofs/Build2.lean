import Verif.Model.Build2
import Verif.Proofs.RDMDet

/-!
# Lemmas about `build_2rdm`
-/

set_option linter.unusedSectionVars false

namespace HQCA
namespace Build2
variable {C : Type} [Coef C]

theorem cre_delta (k : ℕ) (b : Cfg) : (cre k (HQCA.delta b : Cfg → C)) =
    if b k then 0 else (fsign b k : C) • HQCA.delta (Function.update b k true) := by
  funext x
  show (if x k then fsign x k * (HQCA.delta b : Cfg → C) (Function.update x k false) else 0) = _
  by_cases hb : b k
  · rw [if_pos hb]
    by_cases hx : x k
    · simp only [hx, if_true, HQCA.delta]
      rw [if_neg]
      · simp
      · rintro rfl; simp at hb
    · simp [hx]
  · rw [if_neg hb]
    by_cases hx : x k
    · simp only [hx, if_true, HQCA.delta, Pi.smul_apply, smul_eq_mul]
      by_cases he : Function.update x k false = b
      · have h2 : x = Function.update b k true := by
          rw [← he, Function.update_idem, Function.eq_update_iff]
          exact ⟨by simpa using hx, fun _ _ => rfl⟩
        rw [if_pos he, if_pos h2]
        rw [h2, fsign_update]
      · rw [if_neg he, if_neg]
        · simp
        · rintro rfl
          apply he
          rw [Function.update_idem, Function.update_eq_iff]
          exact ⟨by simpa using hb, fun _ _ => rfl⟩
    · have : x ≠ Function.update b k true := by
        rintro rfl; simp at hx
      simp [hx, HQCA.delta, this]

/-- How the sign changes when the occupation of one orbital changes. -/
theorem fsign_flip (b : Cfg) (j l : ℕ) (v : Bool) (h : b j = !v) :
    (fsign (Function.update b j v) l : C) = fsign b l * (if j < l then -1 else 1) := by
  induction l with
  | zero => simp [fsign]
  | succ l ih =>
    rw [fsign_succ, fsign_succ, ih]
    by_cases e : l = j
    · subst e
      cases v <;> simp [h]
    · rw [Function.update_of_ne e]
      by_cases h1 : j < l
      · have : j < l + 1 := by omega
        simp only [h1, this, if_true]; ring
      · have : ¬ j < l + 1 := by omega
        simp only [h1, this, if_false]; ring

/-- The configuration of a determinant string. -/
def cfg (d : Det) : Cfg := fun i => d.getD i false

theorem cfg_set (d : Det) (i : ℕ) (v : Bool) (h : i < d.length) : cfg (d.set i v) = Function.update (cfg d) i v := by
  funext x
  unfold cfg
  by_cases e : x = i
  · subst e; simp [List.getD, h]
  · rw [Function.update_of_ne e]
    simp [List.getD, List.getElem?_set_ne (Ne.symm e)]

theorem cfg_inj (d e : Det) (hl : d.length = e.length) (h : cfg d = cfg e) : d = e := by
  apply List.ext_getElem hl
  intro i h1 h2
  have := congrFun h i
  simpa [cfg, List.getD, h1, h2] using this

theorem detPhase_eq (d : Det) (p : ℕ) : ((detPhase d p : ℤ) : C) = fsign (cfg d) p := by
  unfold detPhase
  induction p with
  | zero => simp [fsign]
  | succ p ih =>
    rw [List.range_succ, List.foldl_append, fsign_succ, ← ih]
    simp only [List.foldl_cons, List.foldl_nil]
    by_cases h : cfg d p = true
    · have h' : d.getD p false = true := h
      rw [if_pos h, if_pos h']; push_cast; ring
    · have h' : ¬ d.getD p false = true := h
      rw [if_neg h, if_neg h', mul_one]

/-- The operator `a†_i a†_k a_l a_j` on a determinant is the phase times the new determinant. -/
theorem phase2e_spec (d : Det) (i k l j : ℕ) (hi : i < d.length) (hk : k < d.length) (hl : l < d.length)
    (hj : j < d.length) :
    (rdmOp [i, k] [j, l] : Oper C) (HQCA.delta (cfg d)) =
      (((phase2e i k l j d).1 : ℤ) : C) • HQCA.delta (cfg (phase2e i k l j d).2) := by
  have hn : cfg (phase2e i k l j d).2 =
      Function.update (Function.update (Function.update (Function.update (cfg d) j false) l false) k true) i true := by
    show cfg (newDet i k l j d) = _
    unfold newDet
    rw [cfg_set _ _ _ (by simpa using hi), cfg_set _ _ _ (by simpa using hk), cfg_set _ _ _ (by simpa using hl),
      cfg_set _ _ _ (by simpa using hj)]
  rw [hn]
  have hL : (rdmOp [i, k] [j, l] : Oper C) (HQCA.delta (cfg d)) = cre i (cre k (ann l (ann j (HQCA.delta (cfg d))))) := by
    simp [rdmOp, Module.End.mul_apply]
  rw [hL]
  have hph : (((phase2e i k l j d).1 : ℤ) : C) = (1 - delta i k : ℤ) * (1 - delta l j : ℤ) *
      (delta i l + delta i j + 1 - b2i (cfg d i) : ℤ) * (delta k l + delta k j + 1 - b2i (cfg d k) : ℤ) *
      (b2i (cfg d l) * b2i (cfg d j) : ℤ) *
      (fsign (cfg d) j * fsign (cfg d) l * fsign (cfg d) k * fsign (cfg d) i) *
      (((if b2i (l ≤ j) % 2 = 1 then -1 else 1 : ℤ) : C) * ((if (b2i (k ≤ l) + b2i (k ≤ j)) % 2 = 1 then -1 else 1 : ℤ) : C) *
        ((if (b2i (i ≤ k) + b2i (i ≤ l) + b2i (i ≤ j)) % 2 = 1 then -1 else 1 : ℤ) : C)) := by
    unfold phase2e
    simp only [Int.cast_mul, detPhase_eq, occ]
    rfl
  rw [hph]
  generalize cfg d = b
  rw [ann_delta]
  by_cases bj : b j
  swap
  · simp [bj, b2i]
  rw [if_pos bj, map_smul, ann_delta]
  by_cases elj : l = j
  · subst elj; simp [delta]
  rw [Function.update_of_ne elj]
  by_cases bl : b l
  swap
  · simp [bl, b2i]
  have b1l : (Function.update b j false) l = !false := by rw [Function.update_of_ne elj]; simpa using bl
  rw [if_pos bl, map_smul, map_smul, map_smul, cre_delta, fsign_flip b j l false (by simpa using bj)]
  have s2 : ∀ x, (fsign (Function.update (Function.update b j false) l false) x : C) =
      fsign b x * (if j < x then -1 else 1) * (if l < x then -1 else 1) := by
    intro x
    rw [fsign_flip _ l x false b1l, fsign_flip b j x false (by simpa using bj)]
  have e1 : (((if b2i (l ≤ j) % 2 = 1 then -1 else 1 : ℤ)) : C) = -(if j < l then -1 else 1) := by
    by_cases h : l ≤ j
    · have : ¬ j < l := by omega
      simp [h, this, b2i]
    · have : j < l := by omega
      simp [h, this, b2i]
  have e2 : (((if (b2i (k ≤ l) + b2i (k ≤ j)) % 2 = 1 then -1 else 1 : ℤ)) : C) =
      (if j < k then -1 else 1) * (if l < k then -1 else 1) := by
    by_cases h : k ≤ l <;> by_cases h' : k ≤ j <;> simp [h, h', b2i, not_lt.mpr, not_le.mp, lt_of_not_ge]
  have e3 : (((if (b2i (i ≤ k) + b2i (i ≤ l) + b2i (i ≤ j)) % 2 = 1 then -1 else 1 : ℤ)) : C) =
      -((if j < i then -1 else 1) * (if l < i then -1 else 1) * (if k < i then -1 else 1)) := by
    by_cases h : i ≤ k <;> by_cases h' : i ≤ l <;> by_cases h'' : i ≤ j <;>
      simp [h, h', h'', b2i, not_lt.mpr, not_le.mp, lt_of_not_ge]
  rw [e1, e2, e3]
  set B := Function.update (Function.update b j false) l false with hB
  have Bx : ∀ x, B x = (b x && !(decide (x = l)) && !(decide (x = j))) := by
    intro x
    by_cases h : x = l
    · subst h; simp [hB]
    · by_cases h' : x = j
      · subst h'; rw [hB, Function.update_of_ne h]; simp
      · rw [hB, Function.update_of_ne h, Function.update_of_ne h']; simp [h, h']
  -- the factor for adding orbital `x`
  have tx : ∀ x, ((delta x l + delta x j + 1 - b2i (b x) : ℤ) : C) = if B x then 0 else 1 := by
    intro x
    rw [Bx]
    by_cases h : x = l
    · subst h; simp [delta, b2i, bl, elj]
    · by_cases h' : x = j
      · subst h'; simp [delta, b2i, bj, h]
      · cases hb : b x <;> simp [delta, b2i, h, h']
  rw [tx, tx]
  by_cases Bk : B k
  · simp [Bk]
  rw [if_neg Bk, if_neg Bk, map_smul (cre i), map_smul (cre i), cre_delta, s2]
  by_cases eik : i = k
  · subst eik; simp [delta]
  rw [Function.update_of_ne eik]
  by_cases Bi : B i
  · simp [Bi]
  rw [if_neg Bi, if_neg Bi, fsign_flip B k i true (by simpa using Bk), s2]
  simp only [smul_smul]
  congr 1
  rw [show (1 - delta i k : ℤ) = 1 by simp [delta, eik], show (1 - delta l j : ℤ) = 1 by simp [delta, elj],
    show (b2i (b l) * b2i (b j) : ℤ) = 1 by simp [b2i, bl, bj]]
  rw [Int.cast_one]
  ring

/-- The state of a wave function. -/
noncomputable def state (wf : Wf C) : Cfg →₀ C := (wf.map fun t => Finsupp.single (cfg t.1) t.2).sum

/-- What the loops compute for one set of indices. -/
noncomputable def amp (wf l' : Wf C) (i k l j : ℕ) : C :=
  (l'.map fun t => ((phase2e i k l j t.1).1 : C) * t.2 * conj ((wf.lookup (phase2e i k l j t.1).2).getD 0)).sum

theorem state_apply (wf : Wf C) (n : ℕ) (hu : (wf.map (·.1)).Nodup) (hn : ∀ t ∈ wf, t.1.length = n) (d : Det)
    (hd : d.length = n) : state wf (cfg d) = (wf.lookup d).getD 0 := by
  induction wf with
  | nil => simp [state]
  | cons t wf ih =>
    classical
    have ih' := ih (List.nodup_cons.mp hu).2 (fun t ht => hn t (by simp [ht]))
    have e : state (t :: wf) (cfg d) = (Finsupp.single (cfg t.1) t.2 : Cfg →₀ C) (cfg d) + state wf (cfg d) := by
      simp [state]
    rw [e, ih', Finsupp.single_apply]
    by_cases h : t.1 = d
    · have h0 : wf.lookup d = none := by
        rw [List.lookup_eq_none_iff]
        intro p hp
        have := (List.nodup_cons.mp hu).1
        simp only [bne_iff_ne, ne_eq]
        intro e2
        exact this (List.mem_map.mpr ⟨p, hp, (h.trans e2).symm⟩)
      obtain ⟨t1, t2⟩ := t
      simp only at h
      subst h
      rw [h0]
      simp [List.lookup]
    · have h1 : ¬ cfg t.1 = cfg d := fun h2 => h (cfg_inj _ _ (by rw [hd, hn t (by simp)]) h2)
      obtain ⟨t1, t2⟩ := t
      have h3 : (d == t1) = false := by simpa using Ne.symm h
      rw [if_neg h1, zero_add, List.lookup, h3]

theorem rdm_state (wf : Wf C) (n : ℕ) (hu : (wf.map (·.1)).Nodup) (hn : ∀ t ∈ wf, t.1.length = n)
    (i k l j : ℕ) (hi : i < n) (hk : k < n) (hl : l < n) (hj : j < n) :
    rdm (state wf) [i, k] [j, l] = amp wf wf i k l j := by
  have hs : (state wf : Cfg → C) = (wf.map fun t => t.2 • HQCA.delta (cfg t.1)).sum := by
    unfold state
    clear hu hn
    induction wf with
    | nil => rfl
    | cons t wf ih =>
      rw [List.map_cons, List.sum_cons, List.map_cons, List.sum_cons, Finsupp.coe_add, ih]
      congr 1
      funext x
      classical
      rw [Finsupp.single_apply]
      simp only [Pi.smul_apply, HQCA.delta, smul_eq_mul]
      by_cases h : x = cfg t.1
      · simp [h]
      · simp [h, Ne.symm h]
  unfold rdm
  conv_lhs => rw [hs]
  rw [map_list_sum, pair_list_sum, List.map_map, List.map_map]
  unfold amp
  congr 1
  apply List.map_congr_left
  intro t ht
  have hl' := hn t ht
  simp only [Function.comp_apply, map_smul]
  rw [phase2e_spec t.1 i k l j (by omega) (by omega) (by omega) (by omega), pair_smul_right, pair_smul_right,
    ← det_eq]
  unfold det
  rw [pair_single_right, state_apply wf n hu hn _ (by simpa [phase2e, newDet] using hl')]
  ring

/-! ### The assignments -/

/-- The index an assignment writes to. -/
def Ev.ix : Ev C → Ix
  | .zero x => x
  | .add x _ => x

open Classical in
/-- The effect of one assignment on one entry. -/
noncomputable def eff (x : Ix) (v : C) : Ev C → C
  | .zero y => if y = x then 0 else v
  | .add y w => if y = x then v + w else v

theorem run_eff (T : Ix → C) (es : List (Ev C)) (x : Ix) : run T es x = es.foldl (eff x) (T x) := by
  unfold run
  induction es generalizing T with
  | nil => rfl
  | cons e es ih =>
    rw [List.foldl_cons, List.foldl_cons, ih]
    congr 1
    cases e with
    | zero y =>
      simp only [step, eff]
      by_cases h : y = x
      · subst h; simp
      · simp [h, Function.update_of_ne (Ne.symm h)]
    | add y w =>
      simp only [step, eff]
      by_cases h : y = x
      · subst h; simp
      · simp [h, Function.update_of_ne (Ne.symm h)]

theorem eff_none (es : List (Ev C)) (x : Ix) (v : C) (h : ∀ e ∈ es, e.ix ≠ x) : es.foldl (eff x) v = v := by
  induction es generalizing v with
  | nil => rfl
  | cons e es ih =>
    rw [List.foldl_cons, ih _ (fun e he => h e (by simp [he]))]
    have := h e (by simp)
    cases e <;> simp [eff, Ev.ix] at this ⊢ <;> simp [this]

/-- If one block writes to an entry, only that block matters. -/
theorem eff_block {β : Type} (B : List β) (f : β → List (Ev C)) (x : Ix) (v : C) (b0 : β) (hB : B.Nodup)
    (h0 : b0 ∈ B) (h : ∀ b ∈ B, b ≠ b0 → ∀ e ∈ f b, e.ix ≠ x) :
    (B.flatMap f).foldl (eff x) v = (f b0).foldl (eff x) v := by
  induction B generalizing v with
  | nil => simp at h0
  | cons b B ih =>
    rw [List.flatMap_cons, List.foldl_append]
    by_cases e : b = b0
    · subst e
      apply eff_none
      intro e he
      obtain ⟨b', hb', he'⟩ := List.mem_flatMap.mp he
      exact h b' (by simp [hb']) (fun hh => (List.nodup_cons.mp hB).1 (hh ▸ hb')) e he'
    · rw [eff_none (f b) x v (h b (by simp) e)]
      exact ih _ (List.nodup_cons.mp hB).2 (by simpa [Ne.symm e] using h0) (fun b' hb' => h b' (by simp [hb']))

/-- The entries written for one set of loop indices. -/
def Writes (q x : Ix) : Prop :=
  (x.1 = q.1 ∧ x.2.1 = q.2.1 ∨ x.1 = q.2.1 ∧ x.2.1 = q.1) ∧
  (x.2.2.1 = q.2.2.1 ∧ x.2.2.2 = q.2.2.2 ∨ x.2.2.1 = q.2.2.2 ∧ x.2.2.2 = q.2.2.1)

theorem adds_writes (wf : Wf C) (i k l j : ℕ) (t : Det × C) (e : Ev C) (he : e ∈ adds wf i k l j t) :
    Writes (i, k, l, j) e.ix := by
  unfold adds at he
  dsimp only at he
  split at he
  · simp at he
  · split at he
    · simp at he
    · simp only [List.mem_cons, List.not_mem_nil, or_false] at he
      rcases he with rfl | rfl | rfl | rfl <;> simp [Writes, Ev.ix]

theorem quad_writes (skip : Option (List ℕ)) (wf : Wf C) (q : Ix) (e : Ev C) (he : e ∈ quad skip wf q) :
    Writes q e.ix := by
  obtain ⟨i, k, l, j⟩ := q
  unfold quad at he
  cases skip with
  | none =>
    obtain ⟨t, -, ht⟩ := List.mem_flatMap.mp he
    exact adds_writes _ _ _ _ _ _ _ ht
  | some inact =>
    dsimp only at he
    split at he
    · simp at he
    · rcases List.mem_append.mp he with he | he
      · simp only [List.mem_cons, List.not_mem_nil, or_false] at he
        rcases he with rfl | rfl | rfl | rfl <;> simp [Writes, Ev.ix]
      · obtain ⟨t, -, ht⟩ := List.mem_flatMap.mp he
        exact adds_writes _ _ _ _ _ _ _ ht

theorem adds_value (wf l' : Wf C) (i k l j : ℕ) (hik : i ≠ k) (hlj : l ≠ j) (v : C) :
    (l'.flatMap (adds wf i k l j)).foldl (eff (i, k, j, l)) v = v + amp wf l' i k l j ∧
    (l'.flatMap (adds wf i k l j)).foldl (eff (k, i, l, j)) v = v + amp wf l' i k l j ∧
    (l'.flatMap (adds wf i k l j)).foldl (eff (i, k, l, j)) v = v - amp wf l' i k l j ∧
    (l'.flatMap (adds wf i k l j)).foldl (eff (k, i, j, l)) v = v - amp wf l' i k l j := by
  induction l' generalizing v with
  | nil => simp [amp]
  | cons t l' ih =>
    have ha : amp wf (t :: l') i k l j =
        ((phase2e i k l j t.1).1 : C) * t.2 * conj ((wf.lookup (phase2e i k l j t.1).2).getD 0) + amp wf l' i k l j := by
      simp [amp]
    simp only [List.flatMap_cons, List.foldl_append]
    rw [ha, (ih _).1, (ih _).2.1, (ih _).2.2.1, (ih _).2.2.2]
    unfold adds
    dsimp only
    split
    · rename_i h; simp [h]
    · split
      · rename_i h; simp [h, conj_zero]
      · rename_i h
        simp only [h, Option.getD_some, List.foldl_cons, List.foldl_nil, eff, Prod.mk.injEq]
        simp only [hik, hlj, Ne.symm hik, Ne.symm hlj, false_and, and_false, if_false, and_self, if_true]
        refine ⟨by ring, by ring, by ring⟩

theorem quad_value (skip : Option (List ℕ)) (wf : Wf C) (n : ℕ) (hu : (wf.map (·.1)).Nodup)
    (hn : ∀ t ∈ wf, t.1.length = n) (i k l j : ℕ) (hi : i < n) (hk : k < n) (hl : l < n) (hj : j < n) (hik : i ≠ k)
    (hlj : l ≠ j) (p q r s : ℕ) (hw : Writes (i, k, l, j) (p, q, r, s)) (v : C) :
    (quad skip wf (i, k, l, j)).foldl (eff (p, q, r, s)) v =
      match skip with
      | none => v + rdm (state wf) [p, q] [r, s]
      | some inact => if p ∈ inact ∧ q ∈ inact ∧ r ∈ inact ∧ s ∈ inact then v else rdm (state wf) [p, q] [r, s] := by
  have hG := rdm_state wf n hu hn i k l j hi hk hl hj
  have hA := rdm_antisym 2 (state wf)
  have s1 : rdm (state wf) [k, i] [j, l] = - rdm (state wf) [i, k] [j, l] := hA.1 [] i k [] [j, l] rfl rfl
  have s2 : rdm (state wf) [i, k] [l, j] = - rdm (state wf) [i, k] [j, l] := hA.2 [i, k] [] j l [] rfl rfl
  have s3 : rdm (state wf) [k, i] [l, j] = - rdm (state wf) [i, k] [l, j] := hA.1 [] i k [] [l, j] rfl rfl
  have key : ∀ v, (wf.flatMap (adds wf i k l j)).foldl (eff (p, q, r, s)) v = v + rdm (state wf) [p, q] [r, s] := by
    intro v
    obtain ⟨a1, a2, a3, a4⟩ := adds_value wf wf i k l j hik hlj v
    simp only [Writes] at hw
    rcases hw with ⟨⟨rfl, rfl⟩ | ⟨rfl, rfl⟩, ⟨rfl, rfl⟩ | ⟨rfl, rfl⟩⟩
    · rw [a3, s2, hG]; ring
    · rw [a1, hG]
    · rw [a2, s3, s2, hG]; ring
    · rw [a4, s1, hG]; ring
  unfold quad
  cases skip with
  | none => exact key v
  | some inact =>
    dsimp only
    have hiff : (i ∈ inact ∧ j ∈ inact ∧ k ∈ inact ∧ l ∈ inact) ↔ (p ∈ inact ∧ q ∈ inact ∧ r ∈ inact ∧ s ∈ inact) := by
      simp only [Writes] at hw
      rcases hw with ⟨⟨rfl, rfl⟩ | ⟨rfl, rfl⟩, ⟨rfl, rfl⟩ | ⟨rfl, rfl⟩⟩ <;> tauto
    by_cases h : i ∈ inact ∧ j ∈ inact ∧ k ∈ inact ∧ l ∈ inact
    · rw [if_pos h, if_pos (hiff.mp h)]; rfl
    · rw [if_neg h, if_neg (fun h' => h (hiff.mpr h')), List.foldl_append, key]
      have hz : ([.zero (i, k, l, j), .zero (k, i, l, j), .zero (k, i, j, l), .zero (i, k, j, l)] : List (Ev C)).foldl
          (eff (p, q, r, s)) v = 0 := by
        simp only [Writes] at hw
        rcases hw with ⟨⟨rfl, rfl⟩ | ⟨rfl, rfl⟩, ⟨rfl, rfl⟩ | ⟨rfl, rfl⟩⟩ <;>
          simp [eff]
      rw [hz, zero_add]

/-! ### The loops -/

theorem nodup_fm {α β : Type} (L : List α) (f : α → List β) (key : β → α) (hL : L.Nodup)
    (h1 : ∀ x ∈ L, (f x).Nodup) (h2 : ∀ x ∈ L, ∀ y ∈ f x, key y = x) : (L.flatMap f).Nodup := by
  induction L with
  | nil => simp
  | cons a L ih =>
    rw [List.flatMap_cons, List.nodup_append]
    refine ⟨h1 a (by simp), ih (List.nodup_cons.mp hL).2 (fun x hx => h1 x (by simp [hx])) (fun x hx => h2 x (by simp [hx])), ?_⟩
    intro y hy z hz e
    subst e
    obtain ⟨b, hb, hy'⟩ := List.mem_flatMap.mp hz
    have e1 := h2 a (by simp) y hy
    have e2 := h2 b (by simp [hb]) y hy'
    rw [← e1, e2] at hL
    exact (List.nodup_cons.mp hL).1 hb

theorem mem_same (o : List ℕ) (i k l j : ℕ) :
    (i, k, l, j) ∈ same o ↔ (i ∈ o ∧ k ∈ o ∧ l ∈ o ∧ j ∈ o) ∧ i < k ∧ l < j := by
  unfold same
  simp only [List.mem_flatMap, List.mem_ite_nil_right, List.mem_singleton, Prod.mk.injEq]
  constructor
  · rintro ⟨a, ha, b, hb, h, c, hc, d, hd, h', rfl, rfl, rfl, rfl⟩
    exact ⟨⟨ha, hb, hc, hd⟩, h, h'⟩
  · rintro ⟨⟨ha, hb, hc, hd⟩, h, h'⟩
    exact ⟨i, ha, k, hb, h, l, hc, j, hd, h', rfl, rfl, rfl, rfl⟩

theorem mem_mixed (a b : List ℕ) (i k l j : ℕ) :
    (i, k, l, j) ∈ mixed a b ↔ i ∈ a ∧ j ∈ a ∧ k ∈ b ∧ l ∈ b := by
  unfold mixed
  simp only [List.mem_flatMap, List.mem_map, Prod.mk.injEq]
  constructor
  · rintro ⟨i, hi, j, hj, k, hk, l, hl, rfl, rfl, rfl, rfl⟩
    exact ⟨hi, hj, hk, hl⟩
  · rintro ⟨hi, hj, hk, hl⟩
    exact ⟨i, hi, j, hj, k, hk, l, hl, rfl, rfl, rfl, rfl⟩

theorem nodup_same (o : List ℕ) (ho : o.Nodup) : (same o).Nodup := by
  unfold same
  refine nodup_fm o _ (fun x => x.1) ho (fun i _ => ?_) ?_
  · refine nodup_fm o _ (fun x => x.2.1) ho (fun k _ => ?_) ?_
    · split
      · refine nodup_fm o _ (fun x => x.2.2.1) ho (fun l _ => ?_) ?_
        · refine nodup_fm o _ (fun x => x.2.2.2) ho (fun j _ => ?_) ?_
          · split <;> simp
          · intro j _ y hy
            simp only [List.mem_ite_nil_right, List.mem_singleton] at hy
            rw [hy.2]
        · intro l _ y hy
          simp only [List.mem_flatMap, List.mem_ite_nil_right, List.mem_singleton] at hy
          obtain ⟨_, _, _, rfl⟩ := hy
          rfl
      · simp
    · intro k _ y hy
      simp only [List.mem_flatMap, List.mem_ite_nil_right, List.mem_singleton] at hy
      obtain ⟨_, _, _, _, _, _, rfl⟩ := hy
      rfl
  · intro i _ y hy
    simp only [List.mem_flatMap, List.mem_ite_nil_right, List.mem_singleton] at hy
    obtain ⟨_, _, _, _, _, _, _, _, rfl⟩ := hy
    rfl

theorem nodup_mixed (a b : List ℕ) (ha : a.Nodup) (hb : b.Nodup) : (mixed a b).Nodup := by
  unfold mixed
  refine nodup_fm a _ (fun x => x.1) ha (fun i _ => ?_) ?_
  · refine nodup_fm a _ (fun x => x.2.2.2) ha (fun k _ => ?_) ?_
    · refine nodup_fm b _ (fun x => x.2.1) hb (fun l _ => ?_) ?_
      · exact hb.map (fun x y h => by simpa using h)
      · intro l _ y hy
        obtain ⟨_, _, rfl⟩ := List.mem_map.mp hy
        rfl
    · intro k _ y hy
      simp only [List.mem_flatMap, List.mem_map] at hy
      obtain ⟨_, _, _, _, rfl⟩ := hy
      rfl
  · intro i _ y hy
    simp only [List.mem_flatMap, List.mem_map] at hy
    obtain ⟨_, _, _, _, _, _, rfl⟩ := hy
    rfl

end Build2
end HQCA
