import Verif.Model.ProjK2
import Verif.Props.EulerMin
import Verif.Props.DMatrix

/-!
# Property theorems: the truncated reduced Hamiltonian (C132)
-/

namespace HQCA.Props
open HQCA HQCA.Resid HQCA.Ham HQCA.DMat
noncomputable section
variable {r : ℕ}

/-! ### The key of a one-body term -/

theorem letter_det1 (o : FL) (i j x : ℕ) (hs : o ≠ .i ↔ x = i ∨ x = j)
    (hw : wt o = (if x = i then wt .cr else 0) + ((if x = j then wt .an else 0) + 0)) (hh : x = i → o ≠ .h) : o = pat i i j j x := by
  unfold pat
  by_cases a1 : x = i <;> by_cases a2 : x = j <;> cases o <;> simp_all [wt]

theorem gen_key1 (N : ℕ) (c : ℂ) (hc : c ≠ 0) (i j : Fin N) (t : Term FStr ℂ)
    (ht : Fermi.generate true c [(i.val, .cr), (j.val, .an)] N = some t) : t.1 = patStr N i.val i.val j.val j.val := by
  have hok : okLetters [(i.val, FL.cr), (j.val, .an)] := by
    intro x hx
    simp only [List.mem_cons, List.not_mem_nil, or_false] at hx
    rcases hx with rfl | rfl <;> simp
  obtain ⟨t', e1, e2, e3⟩ := generate_spec (K := ℂ) c _ N hok
  rw [ht] at e1
  cases e1
  have hlen := e3 (fun a ha => by
    simp only [List.mem_cons, List.not_mem_nil, or_false] at ha
    rcases ha with rfl | rfl <;> simp)
  have hw : (wordF [(i.val, FL.cr), (j.val, .an)] : Oper ℂ) = cre i.val * ann j.val := by simp [wordF, fop]
  rw [hw] at e2
  have hne : (cre i.val * ann j.val : Oper ℂ) ≠ 0 := by
    intro h0
    have := congrFun (LinearMap.congr_fun h0 (fun _ => 1)) (fun x => decide (x = i.val))
    have hs : ∀ (b : Cfg) x, (fsign b x : ℂ) ≠ 0 := fun b x => by unfold fsign; exact pow_ne_zero _ (by norm_num)
    change (if decide (i.val = i.val) then fsign _ _ * (if Function.update (fun x => decide (x = i.val)) i.val false j.val then (0 : ℂ) else fsign _ _ * 1) else (0 : ℂ)) = 0 at this
    have hu : Function.update (fun x => decide (x = i.val)) i.val false j.val = false := by
      by_cases h : j.val = i.val
      · rw [h, Function.update_self]
      · rw [Function.update_of_ne h]; simp [h]
    rw [hu, decide_eq_true rfl, if_pos rfl, if_neg (by simp)] at this
    exact (mul_ne_zero (hs _ _) (mul_ne_zero (hs _ _) one_ne_zero)) this
  have ht0 : t.2 ≠ 0 := by
    intro h0
    rw [h0, zero_smul] at e2
    exact hne ((smul_eq_zero.mp e2.symm).resolve_left hc)
  have hcore : Fermi.generateCore true c [(i.val, .cr), (j.val, .an)] N = some t := ht
  obtain ⟨hs, hf⟩ := SymProj.generate_letters true c _ N hok t hcore ht0
  rw [pairs_eq] at hs hf
  obtain ⟨b, hb⟩ := exists_survives 0 t.1
  have hout : b i.val = true := by
    by_contra h0
    have hne := (denF_apply_ne (K := ℂ) 0 t.1 b).mpr hb
    have := congrFun (LinearMap.congr_fun e2 (fun _ => 1)) b
    have hz : (cre i.val * ann j.val : Oper ℂ) (fun _ => 1) b = 0 := by
      show (if b i.val then _ else (0 : ℂ)) = 0
      rw [if_neg h0]
    rw [LinearMap.smul_apply, LinearMap.smul_apply, Pi.smul_apply, Pi.smul_apply, hz, smul_zero] at this
    exact (smul_ne_zero ht0 hne) this
  refine List.ext_getElem (by simp [patStr, hlen]) fun x hx1 hx2 => ?_
  have hsite := hs x
  rw [SymProj.mem_pairsFrom] at hsite
  have hwt := hf ℤ _ (additive_at x)
  have hsum := SymProj.sum_pairsFrom (M := ℤ) wt rfl 0 t.1 x (Nat.zero_le _)
  rw [hsum] at hwt
  have hsv := survives_getD b 0 t.1 hb x hx1
  rw [Nat.zero_add] at hsv
  rw [Nat.sub_zero] at hsite hwt
  rw [List.getD_eq_getElem _ _ hx1] at hsite hwt hsv
  have e : (patStr N i.val i.val j.val j.val)[x] = pat i.val i.val j.val j.val x := by simp [patStr]
  rw [e]
  have hh : x = i.val → t.1[x] ≠ .h := by
    rintro rfl h0; rw [h0] at hsv; simp [survives, hout] at hsv
  simp only [List.map_cons, List.map_nil, List.sum_cons, List.sum_nil, List.mem_cons, List.not_mem_nil, or_false, Nat.zero_le, true_and] at hwt hsite
  exact letter_det1 _ _ _ _ hsite (by simpa only [eq_comm (b := x)] using hwt) hh

/-! ### Patterns -/

theorem patStr_eq_iff (N i k j l i' k' j' l' : ℕ) (hi : i < N) (hk : k < N) (hj : j < N) (hl : l < N) (hi' : i' < N) (hk' : k' < N)
    (hj' : j' < N) (hl' : l' < N) : patStr N i k j l = patStr N i' k' j' l' ↔
      (∀ x, (x = i ∨ x = k) ↔ (x = i' ∨ x = k')) ∧ (∀ x, (x = j ∨ x = l) ↔ (x = j' ∨ x = l')) := by
  have key : ∀ x < N, patStr N i k j l = patStr N i' k' j' l' → pat i k j l x = pat i' k' j' l' x := by
    intro x hx h
    have := congrArg (fun s : FStr => s[x]?) h
    simpa [patStr, hx] using this
  have hd : ∀ x, pat i k j l x = pat i' k' j' l' x → ((x = i ∨ x = k) ↔ (x = i' ∨ x = k')) ∧ ((x = j ∨ x = l) ↔ (x = j' ∨ x = l')) := by
    intro x h
    unfold pat at h
    by_cases a : x = i ∨ x = k <;> by_cases b : x = j ∨ x = l <;> by_cases a' : x = i' ∨ x = k' <;> by_cases b' : x = j' ∨ x = l' <;>
      simp [a, b, a', b'] at h ⊢
  constructor
  · intro h
    refine ⟨fun x => ?_, fun x => ?_⟩
    · by_cases hx : x < N
      · exact (hd x (key x hx h)).1
      · constructor <;> rintro (rfl | rfl) <;> omega
    · by_cases hx : x < N
      · exact (hd x (key x hx h)).2
      · constructor <;> rintro (rfl | rfl) <;> omega
  · rintro ⟨h1, h2⟩
    unfold patStr
    refine List.map_congr_left fun x _ => ?_
    unfold pat
    simp only [h1 x, h2 x]

theorem expand_nodup (k : ℕ) (s : FStr) : ((s.zipIdx k).flatMap fun x => expandLetter x.2 x.1).Nodup := by
  induction s generalizing k with
  | nil => exact List.nodup_nil
  | cons f s ih =>
    rw [List.zipIdx_cons, List.flatMap_cons]
    refine List.nodup_append.mpr ⟨by cases f <;> simp [expandLetter], ih (k + 1), ?_⟩
    intro a ha b hb e
    have h1 := expandFrom_ge (k + 1) s b hb
    have h2 : a.1 = k := by cases f <;> simp [expandLetter] at ha <;> (try rcases ha with rfl | rfl) <;> simp_all
    rw [← e, h2] at h1
    omega

theorem mem_expand_pat (N i k j l : ℕ) (hi : i < N) (hk : k < N) (hj : j < N) (hl : l < N) (x : ℕ) (o : FL) :
    (x, o) ∈ expand (patStr N i k j l) ↔ (o = .cr ∧ (x = i ∨ x = k)) ∨ (o = .an ∧ (x = j ∨ x = l)) := by
  unfold expand
  rw [List.mem_flatMap]
  constructor
  · rintro ⟨⟨f, n⟩, hf, hm⟩
    rw [List.mem_zipIdx_iff_getElem?] at hf
    have hn : n < N := by
      by_contra h
      simp [patStr, List.getElem?_eq_none (l := List.range N) (i := n) (by simpa using h)] at hf
    have hf' : f = pat i k j l n := by simpa [patStr, hn, eq_comm] using hf
    subst hf'
    unfold pat at hm
    by_cases a : n = i ∨ n = k <;> by_cases b : n = j ∨ n = l <;> simp [a, b, expandLetter] at hm
    · rcases hm with ⟨rfl, rfl⟩ | ⟨rfl, rfl⟩
      · exact Or.inl ⟨rfl, a⟩
      · exact Or.inr ⟨rfl, b⟩
    · obtain ⟨rfl, rfl⟩ := hm; exact Or.inl ⟨rfl, a⟩
    · obtain ⟨rfl, rfl⟩ := hm; exact Or.inr ⟨rfl, b⟩
  · intro h
    have hx : x < N := by rcases h with ⟨-, rfl | rfl⟩ | ⟨-, rfl | rfl⟩ <;> assumption
    refine ⟨(pat i k j l x, x), by rw [List.mem_zipIdx_iff_getElem?]; simp [patStr, hx], ?_⟩
    unfold pat
    rcases h with ⟨rfl, h⟩ | ⟨rfl, h⟩
    · rw [if_pos h]; split <;> simp [expandLetter]
    · rw [if_pos h]; split <;> simp [expandLetter]

/-- What `order_as_D_matrix` returns for a pattern: its creations and its annihilations, each once. -/
theorem order_pat (N i k j l : ℕ) (hi : i < N) (hk : k < N) (hj : j < N) (hl : l < N) (c : ℂ) :
    ∃ (n₀ : ℕ) (c' : ℂ) (u v : List ℕ), (∀ n ≥ n₀, orderAsD n (patStr N i k j l, c) = some [(c', u.map (·, FL.cr) ++ v.map (·, FL.an))]) ∧
      u.Nodup ∧ v.Nodup ∧ (∀ x, x ∈ u ↔ x = i ∨ x = k) ∧ (∀ x, x ∈ v ↔ x = j ∨ x = l) := by
  have hmem := mem_expand_pat N i k j l hi hk hj hl
  have hpm := expandFrom_pm 0 (patStr N i k j l)
  have hnh := expandFrom_noHole 0 (patStr N i k j l) (by
    unfold patStr
    rw [List.mem_map]
    rintro ⟨x, -, h⟩
    unfold pat at h
    split at h <;> split at h <;> cases h)
  have hspec := fun n hn => loop_spec (patStr N i k j l).length (expand (patStr N i k j l)) c hpm hnh
    ⟨(i, .cr), (hmem _ _).mpr (Or.inl ⟨rfl, Or.inl rfl⟩), rfl⟩ ⟨(j, .an), (hmem _ _).mpr (Or.inr ⟨rfl, Or.inl rfl⟩), rfl⟩ n hn
  obtain ⟨n₀, c', w, h1, ⟨u, v, rfl, hu, hv⟩, -⟩ := C12_order_partial (patStr N i k j l, c) (by
    show FL.h ∉ patStr N i k j l
    unfold patStr
    rw [List.mem_map]
    rintro ⟨x, -, h⟩
    unfold pat at h
    split at h <;> split at h <;> cases h) (by
      by_cases h : i = j ∨ i = l
      · right; exact List.mem_map.mpr ⟨i, by simpa using hi, by simp [pat, h]⟩
      · left; exact List.mem_map.mpr ⟨i, by simpa using hi, by simp [pat, h]⟩) (by
      by_cases h : j = i ∨ j = k
      · right; exact List.mem_map.mpr ⟨j, by simpa using hj, by simp [pat, h]⟩
      · left; exact List.mem_map.mpr ⟨j, by simpa using hj, by simp [pat, h]⟩)
  obtain ⟨c2, w2, g1, -, g3, -⟩ := hspec (n₀ + DMat.inv (expand (patStr N i k j l)) + 1) (by omega)
  have e := h1 (n₀ + DMat.inv (expand (patStr N i k j l)) + 1) (by omega)
  unfold orderAsD at e
  have hw : w2 = u ++ v := by
    have := g1.symm.trans e
    simp only [Option.some.injEq, List.cons.injEq, Prod.mk.injEq, and_true] at this
    exact this.2
  subst hw
  have hu' : u = (u.map (·.1)).map (·, FL.cr) := by
    rw [List.map_map]
    conv_lhs => rw [← List.map_id u]
    exact List.map_congr_left fun a ha => Prod.ext rfl (hu a ha)
  have hv' : v = (v.map (·.1)).map (·, FL.an) := by
    rw [List.map_map]
    conv_lhs => rw [← List.map_id v]
    exact List.map_congr_left fun a ha => Prod.ext rfl (hv a ha)
  have hnd : (u ++ v).Nodup := g3.nodup_iff.mpr (expand_nodup 0 _)
  have hm : ∀ x o, (x, o) ∈ u ++ v ↔ (o = .cr ∧ (x = i ∨ x = k)) ∨ (o = .an ∧ (x = j ∨ x = l)) := fun x o => by
    rw [g3.mem_iff, hmem]
  generalize u.map (·.1) = u0 at hu'
  generalize v.map (·.1) = v0 at hv'
  subst hu' hv'
  rw [List.nodup_append] at hnd
  refine ⟨n₀, c', u0, v0, h1, hnd.1.of_map _, hnd.2.1.of_map _, fun x => ?_, fun x => ?_⟩
  · have := hm x .cr
    simpa using this
  · have := hm x .an
    simpa using this

theorem two_of_nodup (u : List ℕ) (i k : ℕ) (hik : i ≠ k) (hn : u.Nodup) (h : ∀ x, x ∈ u ↔ x = i ∨ x = k) : u = [i, k] ∨ u = [k, i] := by
  have hp : u.Perm [i, k] := (List.perm_ext_iff_of_nodup hn (by simp [hik])).mpr (by simpa using h)
  match u, hp.length_eq with
  | [a, b], _ =>
    have ha := (h a).mp (by simp)
    have hb := (h b).mp (by simp)
    have hab : a ≠ b := by simpa using hn
    rcases ha with rfl | rfl <;> rcases hb with rfl | rfl <;> simp_all

theorem one_of_nodup (u : List ℕ) (i : ℕ) (hn : u.Nodup) (h : ∀ x, x ∈ u ↔ x = i ∨ x = i) : u = [i] := by
  have hp : u.Perm [i] := (List.perm_ext_iff_of_nodup hn (by simp)).mpr (by simpa using h)
  exact List.perm_singleton.mp hp

/-! ### One pass -/

/-- The contribution of one one-body integral to an entry of the matrix. -/
def oneCon (h1 : Fin r → Fin r → ℂ) (ne : ℂ) (i j a b c d : Fin r) : ℂ := ∑ k,
    ((if (a, b, c, d) = (i, k, j, k) then h1 i j / (4 * (ne - 1)) else 0)
      + (if (a, b, c, d) = (k, i, k, j) then h1 i j / (4 * (ne - 1)) else 0)
      + (if (a, b, c, d) = (k, i, j, k) then -(h1 i j / (4 * (ne - 1))) else 0)
      + (if (a, b, c, d) = (i, k, k, j) then -(h1 i j / (4 * (ne - 1))) else 0))

/-- The key of a two-body and of a one-body term. -/
def key2 (a b c d : Fin r) : FStr := patStr r a.val b.val c.val d.val
def key1 (i j : Fin r) : FStr := patStr r i.val i.val j.val j.val

/-- What the string `s` contributes to an entry. -/
def con (h1 : Fin r → Fin r → ℂ) (V : Fin r → Fin r → Fin r → Fin r → ℂ) (ne : ℂ) (s : FStr) (a b c d : Fin r) : ℂ :=
  (if a ≠ b ∧ c ≠ d ∧ key2 a b c d = s then 1 / 2 * V a b c d else 0) + ∑ i, ∑ j, if key1 i j = s then oneCon h1 ne i j a b c d else 0

theorem key2_eq (a b c d i k j l : Fin r) : key2 a b c d = key2 i k j l ↔
    (∀ x, (x = a.val ∨ x = b.val) ↔ (x = i.val ∨ x = k.val)) ∧ (∀ x, (x = c.val ∨ x = d.val) ↔ (x = j.val ∨ x = l.val)) :=
  patStr_eq_iff r _ _ _ _ _ _ _ _ a.2 b.2 c.2 d.2 i.2 k.2 j.2 l.2

theorem pair_eq (a b i k : Fin r) (hab : a ≠ b) : (∀ x, (x = a.val ∨ x = b.val) ↔ (x = i.val ∨ x = k.val)) ↔ (a = i ∧ b = k) ∨ (a = k ∧ b = i) := by
  constructor
  · intro h
    have h1 := (h a.val).mp (Or.inl rfl)
    have h2 := (h b.val).mp (Or.inr rfl)
    have hab' : a.val ≠ b.val := fun e => hab (Fin.ext e)
    rcases h1 with h1 | h1 <;> rcases h2 with h2 | h2
    · exact absurd (h1.trans h2.symm) hab'
    · exact Or.inl ⟨Fin.ext h1, Fin.ext h2⟩
    · exact Or.inr ⟨Fin.ext h1, Fin.ext h2⟩
    · exact absurd (h1.trans h2.symm) hab'
  · rintro (⟨rfl, rfl⟩ | ⟨rfl, rfl⟩) x
    · rfl
    · exact or_comm

theorem key2_iff (a b c d i k j l : Fin r) (hab : a ≠ b) (hcd : c ≠ d) :
    key2 a b c d = key2 i k j l ↔ ((a = i ∧ b = k) ∨ (a = k ∧ b = i)) ∧ ((c = j ∧ d = l) ∨ (c = l ∧ d = j)) := by
  rw [key2_eq, pair_eq a b i k hab, pair_eq c d j l hcd]

theorem key1_inj (i j i' j' : Fin r) : key1 i j = key1 i' j' ↔ i = i' ∧ j = j' := by
  constructor
  · intro h
    have := (key2_eq i i j j i' i' j' j').mp h
    simp only [or_self] at this
    exact ⟨Fin.ext ((this.1 i.val).mp rfl), Fin.ext ((this.2 j.val).mp rfl)⟩
  · rintro ⟨rfl, rfl⟩; rfl

theorem key1_ne (i j a b c d : Fin r) (hab : a ≠ b) : key1 i j ≠ key2 a b c d := by
  intro h
  have := (key2_eq i i j j a b c d).mp h
  simp only [or_self] at this
  have h1 := (this.1 a.val).mpr (Or.inl rfl)
  have h2 := (this.1 b.val).mpr (Or.inr rfl)
  exact hab (Fin.ext (h1.trans h2.symm))

theorem idx_val (i : Fin r) : Ham.idx r i.val = some i := by unfold Ham.idx; rw [dif_pos i.2]

/-- A two-body string contributes to the four entries that belong to it. -/
theorem addTwo_eq (h1 : Fin r → Fin r → ℂ) (V : Fin r → Fin r → Fin r → Fin r → ℂ) (ne : ℂ) (i k j l : Fin r) (hik : i ≠ k) (hjl : j ≠ l)
    (K2 : Fin r → Fin r → Fin r → Fin r → ℂ) : addTwo V i k j l K2 = fun a b c d => K2 a b c d + con h1 V ne (key2 i k j l) a b c d := by
  funext a b c d
  unfold con addTwo
  have h0 : ∀ i' j' : Fin r, key1 i' j' ≠ key2 i k j l := fun i' j' => key1_ne i' j' i k j l hik
  simp only [h0, if_false, Finset.sum_const_zero, add_zero, Prod.mk.injEq]
  by_cases hab : a = b
  · subst hab
    have e1 : ¬ (a = i ∧ a = k) := fun h => hik (h.1.symm.trans h.2)
    have e2 : ¬ (a = k ∧ a = i) := fun h => hik (h.2.symm.trans h.1)
    simp only [ne_eq, not_true, false_and, if_false]
    rw [if_neg (fun h => e1 ⟨h.1, h.2.1⟩), if_neg (fun h => e2 ⟨h.1, h.2.1⟩), if_neg (fun h => e2 ⟨h.1, h.2.1⟩), if_neg (fun h => e1 ⟨h.1, h.2.1⟩)]
    ring
  by_cases hcd : c = d
  · subst hcd
    have e1 : ¬ (c = j ∧ c = l) := fun h => hjl (h.1.symm.trans h.2)
    have e2 : ¬ (c = l ∧ c = j) := fun h => hjl (h.2.symm.trans h.1)
    simp only [ne_eq, not_true, false_and, and_false, if_false]
    rw [if_neg (fun h => e1 h.2.2), if_neg (fun h => e1 h.2.2), if_neg (fun h => e2 h.2.2), if_neg (fun h => e2 h.2.2)]
    ring
  simp only [ne_eq, hab, hcd, not_false_eq_true, true_and, key2_iff a b c d i k j l hab hcd]
  have hki := Ne.symm hik
  have hlj := Ne.symm hjl
  by_cases a1 : a = i ∧ b = k
  · obtain ⟨rfl, rfl⟩ := a1
    by_cases b1 : c = j ∧ d = l
    · obtain ⟨rfl, rfl⟩ := b1; simp [hik, hjl]
    by_cases b2 : c = l ∧ d = j
    · obtain ⟨rfl, rfl⟩ := b2; simp [hik, hjl, hlj]
    · simp [hik, b1, b2]
  by_cases a2 : a = k ∧ b = i
  · obtain ⟨rfl, rfl⟩ := a2
    by_cases b1 : c = j ∧ d = l
    · obtain ⟨rfl, rfl⟩ := b1; simp [hki, hjl]
    by_cases b2 : c = l ∧ d = j
    · obtain ⟨rfl, rfl⟩ := b2; simp [hki, hlj]
    · simp [hki, b1, b2]
  · have e1 : ∀ p : Prop, ¬ (a = i ∧ b = k ∧ p) := fun p h => a1 ⟨h.1, h.2.1⟩
    have e2 : ∀ p : Prop, ¬ (a = k ∧ b = i ∧ p) := fun p h => a2 ⟨h.1, h.2.1⟩
    simp [e1, e2, a1, a2]

/-- A one-body string contributes its integral. -/
theorem addOne_eq (h1 : Fin r → Fin r → ℂ) (V : Fin r → Fin r → Fin r → Fin r → ℂ) (ne : ℂ) (i j : Fin r)
    (K2 : Fin r → Fin r → Fin r → Fin r → ℂ) : addOne h1 ne i j K2 = fun a b c d => K2 a b c d + con h1 V ne (key1 i j) a b c d := by
  funext a b c d
  unfold con addOne
  rw [if_neg (fun h => key1_ne i j a b c d h.1 h.2.2.symm), zero_add]
  simp only [key1_inj]
  rw [Finset.sum_eq_single i (fun i' _ h => Finset.sum_eq_zero fun j' _ => if_neg fun e => h e.1) (by simp),
    Finset.sum_eq_single j (fun j' _ h => if_neg fun e => h e.2) (by simp), if_pos ⟨rfl, rfl⟩]
  rfl

variable (T : Term FStr ℂ → Option (POp ℂ)) (tiny below : ℂ → Bool)

/-- One pass for a kept string. -/
theorem projStep_kept (h1 : Fin r → Fin r → ℂ) (V : Fin r → Fin r → Fin r → Fin r → ℂ) (ne : ℂ) (f : Term FStr ℂ)
    (hf : (∃ i j : Fin r, f.1 = key1 i j) ∨ ∃ i k j l : Fin r, i ≠ k ∧ j ≠ l ∧ f.1 = key2 i k j l)
    (hd : discard T tiny below f = some false) :
    ∃ n₀, ∀ n ≥ n₀, ∀ K2, projStep T tiny below n h1 V ne K2 f = some fun a b c d => K2 a b c d + con h1 V ne f.1 a b c d := by
  obtain ⟨s, c⟩ := f
  rcases hf with ⟨i, j, hs⟩ | ⟨i, k, j, l, hik, hjl, hs⟩
  · obtain ⟨n₀, c', u, v, e, hu, hv, mu, mv⟩ := order_pat r i.val i.val j.val j.val i.2 i.2 j.2 j.2 c
    rw [one_of_nodup u _ hu mu, one_of_nodup v _ hv mv] at e
    refine ⟨n₀, fun n hn K2 => ?_⟩
    have e' : orderAsD n (s, c) = some [(c', [(i.val, FL.cr), (j.val, FL.an)])] := by
      rw [show s = patStr r i.val i.val j.val j.val from hs]
      exact e n hn
    simp only at hs
    subst hs
    unfold projStep
    rw [hd, Option.bind_some, e']
    simp [idx_val, addOne_eq h1 V]
  · obtain ⟨n₀, c', u, v, e, hu, hv, mu, mv⟩ := order_pat r i.val k.val j.val l.val i.2 k.2 j.2 l.2 c
    have hik' : i.val ≠ k.val := fun e => hik (Fin.ext e)
    have hjl' : j.val ≠ l.val := fun e => hjl (Fin.ext e)
    simp only at hs
    subst hs
    refine ⟨n₀, fun n hn K2 => ?_⟩
    have e1 := e n hn
    have hk2 : ∀ i' k' j' l' : Fin r, i' ≠ k' → j' ≠ l' → key2 i' k' j' l' = key2 i k j l →
        u.map (·, FL.cr) ++ v.map (·, FL.an) = [(i'.val, FL.cr), (k'.val, .cr), (l'.val, .an), (j'.val, .an)] →
        projStep T tiny below n h1 V ne K2 (key2 i k j l, c) = some fun a b c d => K2 a b c d + con h1 V ne (key2 i k j l) a b c d := by
      intro i' k' j' l' h1' h2' hkk hw
      unfold projStep
      rw [hd, Option.bind_some, show orderAsD n (key2 i k j l, c) = _ from e1, hw]
      simp [idx_val, addTwo_eq h1 V ne i' k' j' l' h1' h2', hkk]
    rcases two_of_nodup u _ _ hik' hu mu with rfl | rfl <;> rcases two_of_nodup v _ _ hjl' hv mv with rfl | rfl
    · exact hk2 i k l j hik (Ne.symm hjl) ((key2_iff i k l j i k j l hik (Ne.symm hjl)).mpr (by simp)) rfl
    · exact hk2 i k j l hik hjl rfl rfl
    · exact hk2 k i l j (Ne.symm hik) (Ne.symm hjl) ((key2_iff k i l j i k j l (Ne.symm hik) (Ne.symm hjl)).mpr (by simp)) rfl
    · exact hk2 k i j l (Ne.symm hik) hjl ((key2_iff k i j l i k j l (Ne.symm hik) hjl).mpr (by simp)) rfl

/-- The strings kept. -/
def keptStr (A : OpD FStr ℂ) : OpD FStr ℂ := A.filter fun f => discard T tiny below f = some false

/-- The loop. -/
theorem projLoop (h1 : Fin r → Fin r → ℂ) (V : Fin r → Fin r → Fin r → Fin r → ℂ) (ne : ℂ) (A : OpD FStr ℂ)
    (hA : ∀ f ∈ A, (∃ i j : Fin r, f.1 = key1 i j) ∨ ∃ i k j l : Fin r, i ≠ k ∧ j ≠ l ∧ f.1 = key2 i k j l)
    (hT : ∀ f ∈ A, discard T tiny below f ≠ none) :
    ∃ n₀, ∀ n ≥ n₀, ∀ K2, A.foldlM (projStep T tiny below n h1 V ne) K2
      = some fun a b c d => K2 a b c d + ((keptStr T tiny below A).map fun f => con h1 V ne f.1 a b c d).sum := by
  induction A with
  | nil => exact ⟨0, fun n _ K2 => by simp [keptStr]⟩
  | cons f A ih =>
    obtain ⟨n₀, hn⟩ := ih (fun g hg => hA g (by simp [hg])) (fun g hg => hT g (by simp [hg]))
    rcases hd : discard T tiny below f with _ | b
    · exact absurd hd (hT f (by simp))
    · cases b with
      | true =>
        refine ⟨n₀, fun n h K2 => ?_⟩
        have e : projStep T tiny below n h1 V ne K2 f = some K2 := by unfold projStep; rw [hd]; rfl
        have hk : keptStr T tiny below (f :: A) = keptStr T tiny below A := by unfold keptStr; rw [List.filter_cons_of_neg (by simp [hd])]
        rw [List.foldlM_cons, e, hk]
        exact hn n h K2
      | false =>
        obtain ⟨n₁, hm⟩ := projStep_kept T tiny below h1 V ne f (hA f (by simp)) hd
        refine ⟨max n₀ n₁, fun n h K2 => ?_⟩
        have hk : keptStr T tiny below (f :: A) = f :: keptStr T tiny below A := by unfold keptStr; rw [List.filter_cons_of_pos (by simp [hd])]
        rw [List.foldlM_cons, hm n (le_trans (le_max_right _ _) h), hk]
        refine (hn n (le_trans (le_max_left _ _) h) _).trans ?_
        simp [add_assoc]

/-! ### All strings together -/

/-- The integrals whose strings are in `S`. -/
def mask1 (S : List FStr) (h1 : Fin r → Fin r → ℂ) (i j : Fin r) : ℂ := if key1 i j ∈ S then h1 i j else 0
def mask2 (S : List FStr) (V : Fin r → Fin r → Fin r → Fin r → ℂ) (a b c d : Fin r) : ℂ :=
  if a ≠ b ∧ c ≠ d ∧ key2 a b c d ∈ S then V a b c d else 0

theorem list_ite_sum (A : OpD FStr ℂ) (hA : UniqueKeys A) (s : FStr) (x : ℂ) :
    (A.map fun f => if s = f.1 then x else 0).sum = if s ∈ A.map (·.1) then x else 0 := by
  induction A with
  | nil => simp
  | cons f A ih =>
    have hA' : UniqueKeys A := (List.nodup_cons.mp hA).2
    have hf : f.1 ∉ A.map (·.1) := (List.nodup_cons.mp hA).1
    rw [List.map_cons, List.sum_cons, ih hA', List.map_cons]
    by_cases h : s = f.1
    · subst h
      rw [if_pos rfl, if_neg hf, if_pos (by simp), add_zero]
    · rw [if_neg h, zero_add]
      by_cases h' : s ∈ A.map (·.1)
      · rw [if_pos h', if_pos (by simp [h'])]
      · rw [if_neg h', if_neg (by rw [List.mem_cons]; tauto)]

theorem list_finset_sum {ι α : Type} [Fintype ι] (A : List α) (g : α → ι → ℂ) :
    (A.map fun f => ∑ i, g f i).sum = ∑ i, (A.map fun f => g f i).sum := by
  induction A with
  | nil => simp
  | cons f A ih => simp [ih, Finset.sum_add_distrib]

theorem con_sum (h1 : Fin r → Fin r → ℂ) (V : Fin r → Fin r → Fin r → Fin r → ℂ) (ne : ℂ) (A : OpD FStr ℂ) (hA : UniqueKeys A) (a b c d : Fin r) :
    (A.map fun f => con h1 V ne f.1 a b c d).sum = k2 (mask1 (A.map (·.1)) h1) (mask2 (A.map (·.1)) V) ne a b c d := by
  unfold con k2
  rw [List.sum_map_add]
  congr 1
  · unfold mask2
    by_cases h : a ≠ b ∧ c ≠ d
    · have e : ∀ f : Term FStr ℂ, (if a ≠ b ∧ c ≠ d ∧ key2 a b c d = f.1 then 1 / 2 * V a b c d else 0)
          = if key2 a b c d = f.1 then 1 / 2 * V a b c d else 0 := fun f => by simp [h.1, h.2]
      rw [List.map_congr_left fun f _ => e f, list_ite_sum A hA]
      simp only [ne_eq, h.1, h.2, not_false_eq_true, true_and]
      split <;> ring
    · have e : ∀ f : Term FStr ℂ, (if a ≠ b ∧ c ≠ d ∧ key2 a b c d = f.1 then 1 / 2 * V a b c d else 0) = 0 :=
        fun f => if_neg fun h' => h ⟨h'.1, h'.2.1⟩
      rw [List.map_congr_left fun f _ => e f, if_neg fun h' => h ⟨h'.1, h'.2.1⟩]
      simp
  · rw [list_finset_sum]
    refine Finset.sum_congr rfl fun i _ => ?_
    rw [list_finset_sum]
    refine Finset.sum_congr rfl fun j _ => ?_
    rw [list_ite_sum A hA]
    unfold mask1 oneCon
    by_cases h : key1 i j ∈ A.map (·.1)
    · rw [if_pos h, if_pos h]
      exact Finset.sum_congr rfl fun k _ => by ring
    · rw [if_neg h, if_neg h]
      simp

/-! ### The strings of the operator -/

/-- The key of a word of the Hamiltonian. -/
def keyOf (r : ℕ) (w : List (ℕ × FL)) : FStr :=
  match w.map (·.1) with
  | [p, q] => patStr r p p q q
  | [p, t, s, q] => patStr r p t q s
  | _ => []

theorem addStr_filter (κ : FStr → Bool) (A : OpD FStr ℂ) (t : Term FStr ℂ) :
    (OpD.addStr A t).filter (fun u => κ u.1) = if κ t.1 then OpD.addStr (A.filter fun u => κ u.1) t else A.filter fun u => κ u.1 := by
  have hk : κ t.1 = true → OpD.hasKey (A.filter fun u => κ u.1) t.1 = A.hasKey t.1 := by
    intro h
    rw [Bool.eq_iff_iff]
    rw [OpD.hasKey_iff, OpD.hasKey_iff]
    simp only [List.mem_map, List.mem_filter]
    constructor
    · rintro ⟨u, ⟨hu, -⟩, e⟩; exact ⟨u, hu, e⟩
    · rintro ⟨u, hu, e⟩; exact ⟨u, ⟨hu, by rw [e, h]⟩, e⟩
  unfold OpD.addStr
  by_cases h : κ t.1 = true
  · rw [if_pos h, hk h]
    split
    · rw [List.filter_map]
      congr 1
      refine List.filter_congr fun u _ => ?_
      show κ (if u.1 = t.1 then (u.1, u.2 + t.2) else u).1 = κ u.1
      split <;> rfl
    · rw [List.filter_append, List.filter_cons_of_pos (p := fun u : Term FStr ℂ => κ u.1) h, List.filter_nil]
  · rw [if_neg h]
    split
    · rw [List.filter_map]
      have e : (fun u : Term FStr ℂ => κ u.1) ∘ (fun u => if u.1 = t.1 then (u.1, u.2 + t.2) else u) = fun u => κ u.1 := by
        funext u
        show κ (if u.1 = t.1 then (u.1, u.2 + t.2) else u).1 = κ u.1
        split <;> rfl
      rw [e]
      conv_rhs => rw [← List.map_id (A.filter fun u => κ u.1)]
      refine List.map_congr_left fun u hu => ?_
      rw [if_neg]
      · rfl
      · intro e
        rw [← e] at h
        exact h (List.mem_filter.mp hu).2
    · rw [List.filter_append, List.filter_cons_of_neg (p := fun u : Term FStr ℂ => κ u.1) h, List.filter_nil, List.append_nil]

theorem fold_addStr_filter (κ : FStr → Bool) (L A : OpD FStr ℂ) :
    (L.foldl OpD.addStr A).filter (fun u => κ u.1) = (L.filter fun u => κ u.1).foldl OpD.addStr (A.filter fun u => κ u.1) := by
  induction L generalizing A with
  | nil => rfl
  | cons t L ih =>
    rw [List.foldl_cons, ih, addStr_filter]
    by_cases h : κ t.1 = true
    · rw [if_pos h, List.filter_cons_of_pos (p := fun u : Term FStr ℂ => κ u.1) h]; rfl
    · rw [if_neg h, List.filter_cons_of_neg (p := fun u : Term FStr ℂ => κ u.1) h]

theorem mapM_keys (κ : FStr → Bool) (l : List (ℂ × List (ℕ × FL))) (hl : ∀ t ∈ l, ∀ a ∈ t.2, a.2 ≠ .i ∧ a.1 < r)
    (hk : ∀ t ∈ l, ∀ u, Fermi.generate true t.1 t.2 r = some u → u.1 = keyOf r t.2) :
    ∃ L, l.mapM (fun t => Fermi.generate true t.1 t.2 r) = some L ∧ (∀ u ∈ L, ∃ t ∈ l, u.1 = keyOf r t.2) ∧
      denD (denF 0) (L.filter fun u => κ u.1) = ((l.filter fun t => κ (keyOf r t.2)).map wordOf).sum := by
  induction l with
  | nil => exact ⟨[], rfl, by simp, rfl⟩
  | cons t l ih =>
    obtain ⟨L, h1, h2, h3⟩ := ih (fun u hu => hl u (by simp [hu])) (fun u hu => hk u (by simp [hu]))
    obtain ⟨u, e1, e2, e3⟩ := C09_fermi_generate t.1 t.2 r (fun a ha => (hl t (by simp) a ha).1)
    have hu := hk t (by simp) u e1
    refine ⟨u :: L, by rw [List.mapM_cons, e1, h1]; rfl, ?_, ?_⟩
    · intro v hv
      rcases List.mem_cons.mp hv with rfl | hv
      · exact ⟨t, by simp, hu⟩
      · obtain ⟨t', ht', e⟩ := h2 v hv; exact ⟨t', by simp [ht'], e⟩
    · by_cases h : κ u.1 = true
      · rw [List.filter_cons_of_pos (p := fun u : Term FStr ℂ => κ u.1) h, List.filter_cons_of_pos (by rw [← hu]; exact h), OpD.denD_cons, h3, List.map_cons, List.sum_cons, e2]
        rfl
      · rw [List.filter_cons_of_neg (p := fun u : Term FStr ℂ => κ u.1) h, List.filter_cons_of_neg (by rw [← hu]; exact h), h3]

theorem filter_flatMap_congr {α β : Type} (l : List α) (f g : α → List β) (P : β → Bool) (h : ∀ a ∈ l, (f a).filter P = g a) :
    (l.flatMap f).filter P = l.flatMap g := by
  induction l with
  | nil => rfl
  | cons a l ih => rw [List.flatMap_cons, List.filter_append, h a (by simp), ih fun b hb => h b (by simp [hb]), List.flatMap_cons]

theorem oneTerms_filter (skip : ℂ → Bool) (h0 : skip 0 = true) (S : List FStr) (h1 : Fin r → Fin r → ℂ) :
    ((oneTerms skip h1).filter fun t => decide (keyOf r t.2 ∈ S)) = oneTerms skip (mask1 S h1) := by
  unfold oneTerms
  refine filter_flatMap_congr _ _ _ _ fun p _ => filter_flatMap_congr _ _ _ _ fun q _ => ?_
  unfold mask1
  have hkey : keyOf r [(p.val, FL.cr), (q.val, FL.an)] = key1 p q := rfl
  by_cases hm : key1 p q ∈ S
  · rw [if_pos hm]
    split
    · rfl
    · rw [List.filter_cons_of_pos (by rw [hkey]; simpa using hm), List.filter_nil]
  · rw [if_neg hm, h0, if_pos rfl]
    split
    · rfl
    · rw [List.filter_cons_of_neg (by rw [hkey]; simpa using hm), List.filter_nil]

theorem twoTerms_filter (skip : ℂ → Bool) (h0 : skip 0 = true) (S : List FStr) (V : Fin r → Fin r → Fin r → Fin r → ℂ) :
    ((twoTerms skip V).filter fun t => decide (keyOf r t.2 ∈ S)) = twoTerms skip (mask2 S V) := by
  unfold twoTerms
  refine filter_flatMap_congr _ _ _ _ fun p _ => filter_flatMap_congr _ _ _ _ fun t _ => ?_
  by_cases hpt : p = t
  · rw [if_pos hpt, if_pos hpt]; rfl
  simp only [if_neg hpt]
  refine filter_flatMap_congr _ _ _ _ fun s _ => ?_
  generalize (0 + (if s = p then 1 else 0) + (if s = t then 1 else 0) : ℕ) = n
  by_cases hn : n = 3
  · rw [if_pos hn, if_pos hn]; rfl
  rw [if_neg hn, if_neg hn]
  refine filter_flatMap_congr _ _ _ _ fun q _ => ?_
  generalize n + (if q = p then 1 else 0) + (if q = t then 1 else 0) + (if q = s then 1 else 0) = m
  by_cases hm' : 3 ≤ m
  · rw [if_pos hm', if_pos hm']; rfl
  rw [if_neg hm', if_neg hm']
  by_cases hqs : q = s
  · rw [if_pos hqs, if_pos hqs]; rfl
  rw [if_neg hqs, if_neg hqs]
  have hkey : keyOf r [(p.val, FL.cr), (t.val, .cr), (s.val, .an), (q.val, FL.an)] = key2 p t q s := rfl
  by_cases hm : key2 p t q s ∈ S
  · have e : mask2 S V p t q s = V p t q s := if_pos ⟨hpt, hqs, hm⟩
    rw [e]
    split
    · rfl
    · rw [List.filter_cons_of_pos (by rw [hkey]; simpa using hm), List.filter_nil]
  · have e : mask2 S V p t q s = 0 := if_neg fun h => hm h.2.2
    rw [e, h0, if_pos rfl]
    split
    · rfl
    · rw [List.filter_cons_of_neg (by rw [hkey]; simpa using hm), List.filter_nil]

/-- The terms of the Hamiltonian. -/
theorem terms_form (skip : ℂ → Bool) (h0 : skip 0 = true) (h1 : Fin r → Fin r → ℂ) (V : Fin r → Fin r → Fin r → Fin r → ℂ) :
    ∀ t ∈ oneTerms skip h1 ++ twoTerms skip V, t.1 ≠ 0 ∧ ((∃ p q : Fin r, t.2 = [(p.val, .cr), (q.val, .an)]) ∨
      ∃ p t' q s : Fin r, p ≠ t' ∧ q ≠ s ∧ t.2 = [(p.val, .cr), (t'.val, .cr), (s.val, .an), (q.val, .an)]) := by
  intro t ht
  rcases List.mem_append.mp ht with ht | ht
  · simp only [oneTerms, List.mem_flatMap] at ht
    obtain ⟨p, _, q, _, ht⟩ := ht
    split at ht
    · simp at ht
    · rename_i hs
      rw [List.mem_singleton] at ht; subst ht
      exact ⟨fun h => hs (by show skip (h1 p q) = true; rw [show h1 p q = 0 from h]; exact h0), Or.inl ⟨p, q, rfl⟩⟩
  · simp only [twoTerms, List.mem_flatMap] at ht
    obtain ⟨p, _, t', _, ht⟩ := ht
    split at ht
    · simp at ht
    · rename_i hpt
      rw [List.mem_flatMap] at ht
      obtain ⟨s, _, ht⟩ := ht
      generalize (0 + (if s = p then 1 else 0) + (if s = t' then 1 else 0) : ℕ) = n at ht
      by_cases hn : n = 3
      · rw [if_pos hn] at ht; simp at ht
      · rw [if_neg hn, List.mem_flatMap] at ht
        obtain ⟨q, _, ht⟩ := ht
        generalize n + (if q = p then 1 else 0) + (if q = t' then 1 else 0) + (if q = s then 1 else 0) = m at ht
        by_cases hm : 3 ≤ m
        · rw [if_pos hm] at ht; simp at ht
        rw [if_neg hm] at ht
        split at ht
        · simp at ht
        rename_i hqs
        split at ht
        · simp at ht
        rename_i hs
        rw [List.mem_singleton] at ht; subst ht
        refine ⟨fun h => hs ?_, Or.inr ⟨p, t', q, s, hpt, hqs, rfl⟩⟩
        have : V p t' q s = 0 := (mul_eq_zero.mp h).resolve_left (by norm_num)
        rw [this]; exact h0

/-- The operator restricted to a set of strings is that of the masked integrals. -/
theorem fermiOp_masked (skip : ℂ → Bool) (h0 : skip 0 = true) (h1 : Fin r → Fin r → ℂ) (V : Fin r → Fin r → Fin r → Fin r → ℂ) :
    ∃ A, fermiOp skip h1 V = some A ∧ UniqueKeys A ∧ (∀ f ∈ A, f.1.length = r) ∧
      (∀ f ∈ A, (∃ i j : Fin r, f.1 = key1 i j) ∨ ∃ i k j l : Fin r, i ≠ k ∧ j ≠ l ∧ f.1 = key2 i k j l) ∧
      ∀ S : List FStr, denD (denF 0) (A.filter fun f => decide (f.1 ∈ S))
        = secondQ (fun p q => cut skip (mask1 S h1 p q)) (fun p t q s => cut skip (mask2 S V p t q s)) := by
  have hform := terms_form skip h0 h1 V
  have hkeys : ∀ t ∈ oneTerms skip h1 ++ twoTerms skip V, ∀ u, Fermi.generate true t.1 t.2 r = some u → u.1 = keyOf r t.2 := by
    intro t ht u hu
    obtain ⟨hc, ⟨p, q, e⟩ | ⟨p, t', q, s, hp, hq, e⟩⟩ := hform t ht
    · rw [e] at hu ⊢
      exact gen_key1 r t.1 hc p q u hu
    · rw [e] at hu ⊢
      exact (gen_key r t.1 hc p t' q s hp hq u hu).1
  have hU : UniqueKeys ([] : OpD FStr ℂ) := List.nodup_nil
  obtain ⟨L, e1, e2, -⟩ := mapM_keys (r := r) (fun _ => true) _ (terms_ok skip h1 V) hkeys
  have hA : fermiOp skip h1 V = some (L.foldl OpD.addStr []) := by unfold fermiOp; rw [e1]; rfl
  have hP : ∀ u ∈ L, (∃ i j : Fin r, u.1 = key1 i j) ∨ ∃ i k j l : Fin r, i ≠ k ∧ j ≠ l ∧ u.1 = key2 i k j l := by
    intro u hu
    obtain ⟨t, ht, e⟩ := e2 u hu
    obtain ⟨-, ⟨p, q, e'⟩ | ⟨p, t', q, s, hp, hq, e'⟩⟩ := hform t ht
    · exact Or.inl ⟨p, q, by rw [e, e']; rfl⟩
    · exact Or.inr ⟨p, t', q, s, hp, hq, by rw [e, e']; rfl⟩
  have hP' := lengths_foldl_addStr (fun s => (∃ i j : Fin r, s = key1 i j) ∨ ∃ i k j l : Fin r, i ≠ k ∧ j ≠ l ∧ s = key2 i k j l) L []
    (by simp) hP
  refine ⟨_, hA, OpD.foldl_addStr_unique L [] hU, ?_, hP', fun S => ?_⟩
  · intro f hf
    rcases hP' f hf with ⟨i, j, e⟩ | ⟨i, k, j, l, -, -, e⟩ <;> rw [e]
    · simp [key1, patStr]
    · simp [key2, patStr]
  · obtain ⟨L', e1', -, e3'⟩ := mapM_keys (r := r) (fun s => decide (s ∈ S)) _ (terms_ok skip h1 V) hkeys
    have hL : L' = L := Option.some.inj (e1'.symm.trans e1)
    subst hL
    rw [fold_addStr_filter (fun s => decide (s ∈ S)), List.filter_nil, OpD.denD_foldl_addStr _ _ _ hU, OpD.denD_nil, zero_add, e3',
      List.filter_append, oneTerms_filter skip h0, twoTerms_filter skip h0, List.map_append, List.sum_append, oneTerms_sum, twoTerms_sum]
    rfl

/-- The energy from the truncated matrix, for any thresholds. -/
theorem projK2_energy (skip : ℂ → Bool) (h0 : skip 0 = true) (h1 : Fin r → Fin r → ℂ) (V : Fin r → Fin r → Fin r → Fin r → ℂ)
    (hT : ∀ f : Term FStr ℂ, f.1.length = r → OpD.transform T [f] ≠ none) (ne : ℂ) :
    ∃ A K2 S, fermiOp skip h1 V = some A ∧ S = (keptStr T tiny below A).map (·.1) ∧
      (∃ n₀, ∀ n ≥ n₀, projK2 T skip tiny below n h1 V ne = some K2) ∧
      denD (denF 0) (keptStr T tiny below A) = secondQ (fun p q => cut skip (mask1 S h1 p q)) (fun p t q s => cut skip (mask2 S V p t q s)) ∧
      ∀ ev : Oper ℂ →ₗ[ℂ] ℂ, ne ≠ 1 → (∀ X : Oper ℂ, ev (X * numberOp r) = ne * ev X) →
        (∀ a b c d : Fin r, rdm2 ev a b c d = rdm2 ev c d a b) →
        observable K2 (rdm2 ev) = ∑ p, ∑ q, mask1 S h1 p q * rdm1 ev p q + 1 / 2 * ∑ p, ∑ t, ∑ q, ∑ s, mask2 S V p t q s * rdm2 ev p t q s := by
  obtain ⟨A, a1, a2, a3, a4, a5⟩ := fermiOp_masked skip h0 h1 V
  have hd : ∀ f ∈ A, discard T tiny below f ≠ none := by
    intro f hf h
    obtain ⟨Q, hQ⟩ := Option.ne_none_iff_exists'.mp (hT f (a3 f hf))
    unfold Ham.discard at h
    rw [hQ] at h
    simp at h
  obtain ⟨n₀, hn⟩ := projLoop T tiny below h1 V ne A a4 hd
  have hUk : UniqueKeys (keptStr T tiny below A) := by
    unfold UniqueKeys at a2 ⊢
    exact a2.sublist (List.Sublist.map _ List.filter_sublist)
  have hfil : keptStr T tiny below A = A.filter fun f => decide (f.1 ∈ (keptStr T tiny below A).map (·.1)) := by
    conv_lhs => unfold keptStr
    refine List.filter_congr fun f hf => ?_
    rw [decide_eq_decide]
    constructor
    · intro h
      exact List.mem_map.mpr ⟨f, List.mem_filter.mpr ⟨hf, by simpa using h⟩, rfl⟩
    · intro h
      obtain ⟨g, hg, e⟩ := List.mem_map.mp h
      have hgf : g = f := List.inj_on_of_nodup_map a2 (List.mem_filter.mp hg).1 hf e
      subst hgf
      simpa using (List.mem_filter.mp hg).2
  set S := (keptStr T tiny below A).map (·.1) with hS
  refine ⟨A, k2 (mask1 S h1) (mask2 S V) ne, S, a1, hS, ⟨n₀, fun n h => ?_⟩, by rw [hfil, a5 S], ?_⟩
  · unfold projK2
    rw [a1, Option.bind_some, hn n h]
    congr 1
    funext a b c d
    rw [zero_add, con_sum h1 V ne _ hUk]
  · intro ev hne hN hD
    rw [C51_energy _ _ (rdm2 ev) (rdm1 ev) ne hne (rdm2_left ev) (rdm2_right ev) (rdm2_contract ev ne hN)]
    have hD1 : ∀ a c : Fin r, rdm1 ev a c = rdm1 ev c a := by
      intro a c
      have e1 := rdm2_contract ev ne hN a c
      have e2 := rdm2_contract ev ne hN c a
      have : ∑ b, rdm2 ev a b c b = ∑ b, rdm2 ev c b a b := Finset.sum_congr rfl fun b _ => hD a b c b
      rw [e1, e2] at this
      exact mul_left_cancel₀ (sub_ne_zero.mpr hne) this
    have t1 : ∑ a, ∑ c, mask1 S h1 a c * rdm1 ev c a = ∑ p, ∑ q, mask1 S h1 p q * rdm1 ev p q :=
      Finset.sum_congr rfl fun p _ => Finset.sum_congr rfl fun q _ => congrArg _ (hD1 q p)
    have t2 : ∑ a, ∑ b, ∑ c, ∑ d, mask2 S V a b c d * rdm2 ev c d a b = ∑ p, ∑ t, ∑ q, ∑ s, mask2 S V p t q s * rdm2 ev p t q s :=
      Finset.sum_congr rfl fun p _ => Finset.sum_congr rfl fun t _ => Finset.sum_congr rfl fun q _ => Finset.sum_congr rfl fun s _ => congrArg _ (hD q s p t)
    rw [t1, t2]

theorem ev_secondQ (ev : Oper ℂ →ₗ[ℂ] ℂ) (h1 : Fin r → Fin r → ℂ) (V : Fin r → Fin r → Fin r → Fin r → ℂ) :
    ev (secondQ h1 V) = ∑ p, ∑ q, h1 p q * rdm1 ev p q + 1 / 2 * ∑ p, ∑ t, ∑ q, ∑ s, V p t q s * rdm2 ev p t q s := by
  unfold secondQ
  rw [map_add]
  congr 1
  · rw [map_sum]
    refine Finset.sum_congr rfl fun p _ => ?_
    rw [map_sum]
    refine Finset.sum_congr rfl fun q _ => ?_
    rw [map_smul, smul_eq_mul]
    rfl
  · rw [map_sum, Finset.mul_sum]
    refine Finset.sum_congr rfl fun p _ => ?_
    rw [map_sum, Finset.mul_sum]
    refine Finset.sum_congr rfl fun t _ => ?_
    rw [map_sum, Finset.sum_congr rfl fun s _ => map_sum ev _ _, Finset.sum_comm, Finset.mul_sum]
    refine Finset.sum_congr rfl fun q _ => ?_
    rw [Finset.mul_sum]
    refine Finset.sum_congr rfl fun s _ => ?_
    rw [map_smul, smul_eq_mul, mul_assoc]
    rfl

theorem cut_exact (skip : ℂ → Bool) (x : ℂ) (h : skip x = true → x = 0) : cut skip x = x := by
  unfold cut
  split
  · rename_i h'; exact (h h').symm
  · rfl

theorem mask1_cases (S : List FStr) (h1 : Fin r → Fin r → ℂ) (p q : Fin r) : mask1 S h1 p q = h1 p q ∨ mask1 S h1 p q = 0 := by
  unfold mask1; split <;> simp

theorem mask2_cases (S : List FStr) (V : Fin r → Fin r → Fin r → Fin r → ℂ) (p t q s : Fin r) : mask2 S V p t q s = V p t q s ∨ mask2 S V p t q s = 0 := by
  unfold mask2; split <;> simp

/-- **C132 (partial).**  Without a frozen core and with a threshold on the integrals that only leaves out zeros, the truncated
matrix is built, and for every state of definite particle number other than one with a symmetric two-body density matrix
the energy computed from it is the expectation value of the strings of the Hamiltonian that were not discarded. -/
theorem C132_partial (skip : ℂ → Bool) (h0 : skip 0 = true) (h1 : Fin r → Fin r → ℂ) (V : Fin r → Fin r → Fin r → Fin r → ℂ)
    (hs1 : ∀ a b, skip (h1 a b) = true → h1 a b = 0) (hs2 : ∀ a b c d, skip (V a b c d) = true → V a b c d = 0)
    (hT : ∀ f : Term FStr ℂ, f.1.length = r → OpD.transform T [f] ≠ none) (ne : ℂ) :
    ∃ A K2, fermiOp skip h1 V = some A ∧ (∃ n₀, ∀ n ≥ n₀, projK2 T skip tiny below n h1 V ne = some K2) ∧
      ∀ ev : Oper ℂ →ₗ[ℂ] ℂ, ne ≠ 1 → (∀ X : Oper ℂ, ev (X * numberOp r) = ne * ev X) →
        (∀ a b c d : Fin r, rdm2 ev a b c d = rdm2 ev c d a b) →
        observable K2 (rdm2 ev) = ev (denD (denF 0) (keptStr T tiny below A)) := by
  obtain ⟨A, K2, S, e1, -, e2, e3, e4⟩ := projK2_energy T tiny below skip h0 h1 V hT ne
  refine ⟨A, K2, e1, e2, fun ev hne hN hD => ?_⟩
  rw [e4 ev hne hN hD, e3, ev_secondQ]
  have c1 : ∀ p q, cut skip (mask1 S h1 p q) = mask1 S h1 p q := fun p q => cut_exact _ _ fun h => by
    rcases mask1_cases S h1 p q with e | e
    · rw [e] at h ⊢; exact hs1 p q h
    · exact e
  have c2 : ∀ p t q s, cut skip (mask2 S V p t q s) = mask2 S V p t q s := fun p t q s => cut_exact _ _ fun h => by
    rcases mask2_cases S V p t q s with e | e
    · rw [e] at h ⊢; exact hs2 p t q s h
    · exact e
  simp only [c1, c2]

/-- With any threshold: the integrals left out of the operator but not of the matrix change the energy by at most the threshold
times the size of the density matrices. -/
theorem C132_threshold_partial (thr : ℝ) (h0 : 0 ≤ thr) (h1 : Fin r → Fin r → ℂ) (V : Fin r → Fin r → Fin r → Fin r → ℂ)
    (hT : ∀ f : Term FStr ℂ, f.1.length = r → OpD.transform T [f] ≠ none) (ne : ℂ) :
    open Classical in
    ∃ A K2, fermiOp (fun x => decide (‖x‖ ≤ thr)) h1 V = some A ∧
      (∃ n₀, ∀ n ≥ n₀, projK2 T (fun x => decide (‖x‖ ≤ thr)) tiny below n h1 V ne = some K2) ∧
      ∀ ev : Oper ℂ →ₗ[ℂ] ℂ, ne ≠ 1 → (∀ X : Oper ℂ, ev (X * numberOp r) = ne * ev X) →
        (∀ a b c d : Fin r, rdm2 ev a b c d = rdm2 ev c d a b) →
        ‖observable K2 (rdm2 ev) - ev (denD (denF 0) (keptStr T tiny below A))‖
          ≤ thr * (∑ p : Fin r, ∑ q : Fin r, ‖rdm1 ev p q‖ + 1 / 2 * ∑ p : Fin r, ∑ t : Fin r, ∑ q : Fin r, ∑ s : Fin r, ‖rdm2 ev p t q s‖) := by
  classical
  obtain ⟨A, K2, S, e1, -, e2, e3, e4⟩ := projK2_energy T tiny below (fun x => decide (‖x‖ ≤ thr)) (by simpa using h0) h1 V hT ne
  refine ⟨A, K2, e1, e2, fun ev hne hN hD => ?_⟩
  rw [e4 ev hne hN hD, e3, ev_secondQ]
  have hcut : ∀ x y : ℂ, ‖x * y - cut (fun x => decide (‖x‖ ≤ thr)) x * y‖ ≤ thr * ‖y‖ := by
    intro x y
    unfold cut
    by_cases h : ‖x‖ ≤ thr
    · rw [if_pos (by simpa using h), zero_mul, sub_zero, norm_mul]
      exact mul_le_mul_of_nonneg_right h (norm_nonneg _)
    · rw [if_neg (by simpa using h), sub_self, norm_zero]
      positivity
  rw [add_sub_add_comm, ← mul_sub, mul_add]
  refine (norm_add_le _ _).trans (add_le_add ?_ ?_)
  · rw [← Finset.sum_sub_distrib, Finset.mul_sum]
    refine (norm_sum_le _ _).trans (Finset.sum_le_sum fun p _ => ?_)
    rw [← Finset.sum_sub_distrib, Finset.mul_sum]
    exact (norm_sum_le _ _).trans (Finset.sum_le_sum fun q _ => hcut _ _)
  · rw [norm_mul, show ‖(1 / 2 : ℂ)‖ = 1 / 2 by norm_num, mul_left_comm]
    refine mul_le_mul_of_nonneg_left ?_ (by norm_num)
    rw [← Finset.sum_sub_distrib, Finset.mul_sum]
    refine (norm_sum_le _ _).trans (Finset.sum_le_sum fun p _ => ?_)
    rw [← Finset.sum_sub_distrib, Finset.mul_sum]
    refine (norm_sum_le _ _).trans (Finset.sum_le_sum fun t _ => ?_)
    rw [← Finset.sum_sub_distrib, Finset.mul_sum]
    refine (norm_sum_le _ _).trans (Finset.sum_le_sum fun q _ => ?_)
    rw [← Finset.sum_sub_distrib, Finset.mul_sum]
    exact (norm_sum_le _ _).trans (Finset.sum_le_sum fun s _ => hcut _ _)

/-- With Jordan-Wigner nothing more is needed of the transform. -/
theorem C132_jw_partial (skip : ℂ → Bool) (h0 : skip 0 = true) (h1 : Fin r → Fin r → ℂ) (V : Fin r → Fin r → Fin r → Fin r → ℂ)
    (hs1 : ∀ a b, skip (h1 a b) = true → h1 a b = 0) (hs2 : ∀ a b c d, skip (V a b c d) = true → V a b c d = 0) (ne : ℂ) :
    ∃ A K2, fermiOp skip h1 V = some A ∧ (∃ n₀, ∀ n ≥ n₀, projK2 Transform.jordanWigner skip tiny below n h1 V ne = some K2) ∧
      ∀ ev : Oper ℂ →ₗ[ℂ] ℂ, ne ≠ 1 → (∀ X : Oper ℂ, ev (X * numberOp r) = ne * ev X) →
        (∀ a b c d : Fin r, rdm2 ev a b c d = rdm2 ev c d a b) →
        observable K2 (rdm2 ev) = ev (denD (denF 0) (keptStr Transform.jordanWigner tiny below A)) := by
  refine C132_partial Transform.jordanWigner tiny below skip h0 h1 V hs1 hs2 (fun f hf => ?_) ne
  obtain ⟨C, -, e, -⟩ := C15_transform_jw [f] r (by simpa using hf)
  rw [e]; simp

/-- What truncation changes: for symmetric integrals the energy of the full matrix is larger than the truncated one by the
expectation value of the strings discarded. -/
theorem C132_gap_partial (skip : ℂ → Bool) (h0 : skip 0 = true) (h1 : Fin r → Fin r → ℂ) (V : Fin r → Fin r → Fin r → Fin r → ℂ)
    (hh : ∀ a b, h1 a b = h1 b a) (hV : ∀ a b c d, V a b c d = V c d a b)
    (hs1 : ∀ a b, skip (h1 a b) = true → h1 a b = 0) (hs2 : ∀ a b c d, skip (V a b c d) = true → V a b c d = 0)
    (hT : ∀ f : Term FStr ℂ, f.1.length = r → OpD.transform T [f] ≠ none) (ne : ℂ) :
    ∃ A K2, fermiOp skip h1 V = some A ∧ (∃ n₀, ∀ n ≥ n₀, projK2 T skip tiny below n h1 V ne = some K2) ∧
      ∀ ev : Oper ℂ →ₗ[ℂ] ℂ, ne ≠ 1 → (∀ X : Oper ℂ, ev (X * numberOp r) = ne * ev X) →
        (∀ a b c d : Fin r, rdm2 ev a b c d = rdm2 ev c d a b) →
        observable (k2 h1 V ne) (rdm2 ev) = observable K2 (rdm2 ev)
          + ev (denD (denF 0) (A.filter fun f => Ham.discard T tiny below f == some true)) := by
  obtain ⟨A, K2, e1, e2, e3⟩ := C132_partial T tiny below skip h0 h1 V hs1 hs2 hT ne
  obtain ⟨A', a1, -, a3, a4⟩ := C52_fermi_operator skip h1 V
  have hA : A' = A := Option.some.inj (a1.symm.trans e1)
  subst hA
  refine ⟨A', K2, e1, e2, fun ev hne hN hD => ?_⟩
  rw [e3 ev hne hN hD, C52_energy ev ne hne hN h1 V hh hV]
  have c1 : (fun p q => cut skip (h1 p q)) = h1 := by
    funext p q; unfold cut; split
    · rename_i h; exact (hs1 p q h).symm
    · rfl
  have c2 : (fun p t q s => cut skip (V p t q s)) = V := by
    funext p t q s; unfold cut; split
    · rename_i h; exact (hs2 p t q s h).symm
    · rfl
  rw [c1, c2] at a4
  rw [← a4, ← map_add]
  congr 1
  clear a4 a1 e1 e2 e3
  induction A' with
  | nil => simp [keptStr, OpD.denD_nil]
  | cons f A ih =>
    have ih' := ih fun u hu => a3 u (by simp [hu])
    obtain ⟨Q, hQ⟩ := Option.ne_none_iff_exists'.mp (hT f (a3 f (by simp)))
    have hd : Ham.discard T tiny below f = some (OpD.null tiny Q || below f.2) := by unfold Ham.discard; rw [hQ]; rfl
    unfold keptStr at ih' ⊢
    rw [OpD.denD_cons, ih']
    cases hb : (OpD.null tiny Q || below f.2)
    · rw [hb] at hd
      rw [List.filter_cons_of_pos (by simp [hd]), List.filter_cons_of_neg (by simp [hd]), OpD.denD_cons]
      abel
    · rw [hb] at hd
      rw [List.filter_cons_of_neg (by simp [hd]), List.filter_cons_of_pos (by simp [hd]), OpD.denD_cons]
      abel

open Classical in
/-- Two electrons in two orbitals, arbitrary symmetric integrals, arbitrary tests of size: the hypotheses hold. -/
example (h1 : Fin 2 → Fin 2 → ℂ) (V : Fin 2 → Fin 2 → Fin 2 → Fin 2 → ℂ) (hh : ∀ a b, h1 a b = h1 b a)
    (hV : ∀ a b c d, V a b c d = V c d a b) :
    ∃ A K2, fermiOp (fun x => decide (x = 0)) h1 V = some A ∧
      (∃ n₀, ∀ n ≥ n₀, projK2 Transform.jordanWigner (fun x => decide (x = 0)) tiny below n h1 V 2 = some K2) ∧
        observable (k2 h1 V 2) (rdm2 (evCfg twoElectrons)) = observable K2 (rdm2 (evCfg twoElectrons))
          + evCfg twoElectrons (denD (denF 0) (A.filter fun f => Ham.discard Transform.jordanWigner tiny below f == some true)) := by
  obtain ⟨A, K2, e1, e2, e3⟩ := C132_gap_partial Transform.jordanWigner tiny below (fun x => decide (x = 0)) (by simp) h1 V hh hV
    (by simp) (by simp) (fun f hf => by
      obtain ⟨C, -, e, -⟩ := C15_transform_jw [f] 2 (by simpa using hf)
      rw [e]; simp) 2
  refine ⟨A, K2, e1, e2, e3 _ (by norm_num) (fun X => ?_) ?_⟩
  · rw [evCfg_number]
    have : (Finset.univ.filter (fun i : Fin 2 => twoElectrons i.val = true)).card = 2 := by decide
    rw [this]; norm_num
  · have hl := rdm2_left (r := 2) (evCfg (K := ℂ) twoElectrons)
    have hr := rdm2_right (r := 2) (evCfg (K := ℂ) twoElectrons)
    have hz : ∀ a c d : Fin 2, rdm2 (evCfg (K := ℂ) twoElectrons) a a c d = 0 := fun a c d => self_eq_neg.mp (hl a a c d)
    have hz' : ∀ a c d : Fin 2, rdm2 (evCfg (K := ℂ) twoElectrons) c d a a = 0 := fun a c d => self_eq_neg.mp (hr c d a a)
    have h01 := hl 1 0 0 1
    have h10 := hr 0 1 1 0
    intro a b c d
    fin_cases a <;> fin_cases b <;> fin_cases c <;> fin_cases d <;> simp only [Fin.zero_eta, Fin.mk_one, hz, hz'] <;> simp [h01, h10]

end
end HQCA.Props
