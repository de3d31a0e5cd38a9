import Verif.Proofs.SymExpand
import Verif.Proofs.FermiStr
import Verif.Proofs.TransformExact

/-!
# The rows of the symmetry projection: exact images of the strings of one pattern
-/

namespace HQCA.SymProj
open Transform

/-! ### Constructing a string from sorted letters -/

theorem pairsFrom_cons (k : ℕ) (x : FL) (s : FStr) :
    pairsFrom k (x :: s) = if x = .i then pairsFrom (k+1) s else (k, x) :: pairsFrom (k+1) s := by
  unfold pairsFrom
  by_cases h : x = .i
  · subst h; simp
  · simp [h]

theorem pairsFrom_ge (k : ℕ) (s : FStr) : ∀ a ∈ pairsFrom k s, k ≤ a.1 ∧ a.1 < k + s.length ∧ a.2 ≠ .i := by
  induction s generalizing k with
  | nil => simp [pairsFrom]
  | cons x s ih =>
    intro a ha
    rw [pairsFrom_cons] at ha
    rw [List.length_cons]
    split at ha
    · have := ih (k+1) a ha
      exact ⟨by omega, by omega, this.2.2⟩
    · rename_i hx
      rcases List.mem_cons.mp ha with rfl | ha
      · exact ⟨le_rfl, by show k < _; omega, hx⟩
      · have := ih (k+1) a ha
        exact ⟨by omega, by omega, this.2.2⟩

theorem pairsFrom_sorted (k : ℕ) (s : FStr) : (pairsFrom k s).Pairwise (fun a b => a.1 < b.1) := by
  induction s generalizing k with
  | nil => simp [pairsFrom]
  | cons x s ih =>
    rw [pairsFrom_cons]
    split
    · exact ih (k+1)
    · refine List.Pairwise.cons (fun a ha => ?_) (ih (k+1))
      have := (pairsFrom_ge (k+1) s a ha).1
      show k < a.1
      omega

theorem sortStep_sorted (f : Bool) (l : List (ℕ × FL)) (h : l.Pairwise (fun a b => a.1 < b.1)) :
    Fermi.sortStep f l = none := by
  induction l with
  | nil => rfl
  | cons a l ih =>
    cases l with
    | nil => rfl
    | cons b l =>
      have h1 := List.pairwise_cons.mp h
      have hab := h1.1 b (by simp)
      rw [Fermi.sortStep, if_neg (by omega), ih h1.2]
      rfl

theorem buildRest_pairs (k : ℕ) (s : FStr) (a : ℕ × FL) (l : List (ℕ × FL)) (h : pairsFrom k s = a :: l) :
    List.replicate (a.1 - k) .i ++ Fermi.buildRest (k + s.length) a l = s := by
  induction s generalizing k a l with
  | nil => simp [pairsFrom] at h
  | cons x s ih =>
    rw [pairsFrom_cons] at h
    have e : k + (x :: s).length = k + 1 + s.length := by simp; omega
    split at h
    · rename_i hx
      have h1 := ih (k+1) a l h
      have h2 := (pairsFrom_ge (k+1) s a (by rw [h]; simp)).1
      have : a.1 - k = (a.1 - (k+1)) + 1 := by omega
      rw [e, this, List.replicate_succ, List.cons_append, h1, hx]
    · obtain ⟨rfl, rfl⟩ := List.cons.inj h
      rw [e]
      simp only [Nat.sub_self, List.replicate_zero, List.nil_append]
      cases hl : pairsFrom (k+1) s with
      | nil =>
        rw [Fermi.buildRest]
        congr 1
        have hs : ∀ (j : ℕ) (s : FStr), pairsFrom j s = [] → s = List.replicate s.length .i := by
          intro j s
          induction s generalizing j with
          | nil => simp
          | cons y s ih =>
            intro h
            rw [pairsFrom_cons] at h
            split at h
            · rename_i hy
              rw [List.length_cons, List.replicate_succ, ← ih (j+1) h, hy]
            · simp at h
        have := hs (k+1) s hl
        have e2 : k + 1 + s.length - k - 1 = s.length := by omega
        show List.replicate (k + 1 + s.length - k - 1) FL.i = s
        rw [e2]; exact this.symm
      | cons b l' =>
        have h1 := ih (k+1) b l' hl
        rw [Fermi.buildRest]
        have e2 : b.1 - k - 1 = b.1 - (k+1) := by omega
        show x :: (List.replicate (b.1 - k - 1) FL.i ++ _) = x :: s
        rw [e2, h1]

theorem generateCore_pairs (f : Bool) (c : ℂ) (hc : c ≠ 0) (s : FStr) (h : Fermi.pairs s ≠ []) :
    Fermi.generateCore f c (Fermi.pairs s) s.length = some (s, c) := by
  rw [pairs_eq] at *
  have hs := pairsFrom_sorted 0 s
  have hl : ∀ n, Fermi.sortLoop f n c (pairsFrom 0 s) = (c, pairsFrom 0 s) := by
    intro n
    cases n with
    | zero => rfl
    | succ n => rw [Fermi.sortLoop, sortStep_sorted f _ hs]
  have hd : ((pairsFrom 0 s).map (·.1)).dedup.length = (pairsFrom 0 s).length := by
    have hn : ((pairsFrom 0 s).map (·.1)).Nodup := by
      rw [List.Nodup, List.pairwise_map]
      exact hs.imp (fun h => by omega)
    rw [hn.dedup, List.length_map]
  have hz : isZero c = false := by
    rw [← Bool.not_eq_true, Coef.isZero_iff]; exact hc
  unfold Fermi.generateCore
  simp only [hl, hd, if_true, hz, Bool.false_eq_true, if_false]
  cases hp : pairsFrom 0 s with
  | nil => exact absurd hp h
  | cons a l =>
    have := buildRest_pairs 0 s a l hp
    simp only [Nat.sub_zero, Nat.zero_add] at this
    rw [Fermi.build, this]
    rfl

theorem gen_pairs (loc : Bool) (c : ℂ) (hc : c ≠ 0) (s : FStr) (h : Fermi.pairs s ≠ []) :
    gen loc c (Fermi.pairs s) s.length = some (s, c) := by
  unfold gen Qubit.generate Fermi.generate
  rw [generateCore_pairs _ c hc s h, generateCore_pairs _ c hc s h]
  simp [h]

/-- The string with its letters replaced. -/
def refill : FStr → List FL → FStr
  | [], _ => []
  | x :: s, t =>
    if x = .i then .i :: refill s t
    else match t with
      | [] => x :: refill s []
      | a :: t => a :: refill s t

theorem refill_length (s : FStr) (t : List FL) : (refill s t).length = s.length := by
  induction s generalizing t with
  | nil => rfl
  | cons x s ih =>
    unfold refill
    split
    · simp [ih]
    · cases t <;> simp [ih]

theorem refill_pairs (k : ℕ) (s : FStr) (t : List FL) (ht : ∀ x ∈ t, x ≠ .i)
    (hl : t.length = (s.filter (fun x => x ≠ .i)).length) :
    pairsFrom k (refill s t) = ((pairsFrom k s).map (·.1)).zip t := by
  induction s generalizing k t with
  | nil => simp [refill, pairsFrom]
  | cons x s ih =>
    by_cases hx : x = .i
    · subst hx
      have e : refill (FL.i :: s) t = .i :: refill s t := by rw [refill.eq_def]; simp
      rw [e, pairsFrom_cons, pairsFrom_cons, if_pos rfl, if_pos rfl]
      exact ih (k+1) t ht (by simpa using hl)
    · cases t with
      | nil => simp [hx] at hl
      | cons a t =>
        have ha := ht a (by simp)
        have e : refill (x :: s) (a :: t) = a :: refill s t := by rw [refill.eq_def]; simp [hx]
        rw [e, pairsFrom_cons, pairsFrom_cons, if_neg ha, if_neg hx, List.map_cons, List.zip_cons_cons]
        rw [ih (k+1) t (fun y hy => ht y (by simp [hy])) (by simpa [hx] using hl)]

theorem pairsFrom_snd (k : ℕ) (s : FStr) : (pairsFrom k s).map (·.2) = s.filter (fun x => x ≠ .i) := by
  induction s generalizing k with
  | nil => rfl
  | cons x s ih =>
    rw [pairsFrom_cons]
    by_cases hx : x = .i
    · simp [hx, ih]
    · simp [hx, ih]

theorem nLetters_pairs (s : FStr) : nLetters s = (Fermi.pairs s).length := by
  rw [pairs_eq, ← List.length_map (f := (·.2)), pairsFrom_snd, nLetters]

/-! ### Images -/

/-- A transform of strings on `N` sites, with the operators its letters stand for. -/
structure Ctx (N : ℕ) (rev : Bool) (D : ℕ → FL → Oper ℂ) (S : ℕ → Bool → PStr × PStr)
    (T : Term FStr ℂ → Option (POp ℂ)) (F : FStr → Oper ℂ) : Prop where
  tab : ClassTab N D S
  spec : ∀ t : Term FStr ℂ, Spec T t (F t.1)
  den : ∀ s : FStr, s.length = N → F s = prodO rev D (Fermi.pairs s)

theorem good_pairs (s : FStr) : Good s.length (Fermi.pairs s) := by
  intro a ha
  rw [pairs_eq] at ha
  have := pairsFrom_ge 0 s a ha
  exact ⟨by omega, this.2.2⟩

theorem denD_eq_sum {α : Type} (d : α → Oper ℂ) (A : OpD α ℂ) : denD d A = (A.map (fun t => t.2 • d t.1)).sum := rfl

variable {N : ℕ} {rev : Bool} {D : ℕ → FL → Oper ℂ} {S : ℕ → Bool → PStr × PStr}
  {T : Term FStr ℂ → Option (POp ℂ)} {F : FStr → Oper ℂ}

/-- What is known about the image of a string with `k` letters and coefficient `2^k`. -/
structure Img (N : ℕ) (rev : Bool) (S : ℕ → Bool → PStr × PStr) (l : List (ℕ × FL)) (r : POp ℂ) : Prop where
  unique : UniqueKeys r
  len : r.length = 2 ^ l.length
  unit : ∀ u ∈ r, ‖u.2‖ = 1
  keys : (r.map (·.1)).Perm ((bools l.length).map (key N rev S l))
  coef : ∀ w, w.length = l.length → coef r (key N rev S l w) = 2 ^ l.length * amp N rev S l w

theorem image_spec (C : Ctx N rev D S T F) (s : FStr) (hs : s.length = N) (h0 : Fermi.pairs s ≠ []) :
    ∃ r, image T (s, 2 ^ (Fermi.pairs s).length) = some r ∧ Img N rev S (Fermi.pairs s) r := by
  set l := Fermi.pairs s with hl
  have hk : nLetters s = l.length := nLetters_pairs s
  have h2 : (2 : ℂ) ^ l.length ≠ 0 := pow_ne_zero _ two_ne_zero
  have h1 : (2 : ℂ) ^ l.length / 2 ^ l.length = 1 := div_self h2
  have hsm : small (1 : ℂ) = false := by
    rw [← Bool.not_eq_true, small_complex]; norm_num
  obtain ⟨r, e1, e2, e3, e4, e5, e6⟩ := (C.spec (s, 2 ^ l.length)).above (Or.inr (by
    show small ((2 : ℂ) ^ l.length / 2 ^ nLetters s) = false
    rw [hk, h1]; exact hsm))
  simp only [hk, h1, one_mul] at e4 e5
  have hg : Good N l := hs ▸ good_pairs s
  have hI : ∀ u ∈ r, ‖u.2‖ = 1 := by
    intro u hu
    obtain ⟨e, he⟩ := e5 u hu
    rw [he]
    show ‖Complex.I ^ e‖ = 1
    simp
  have himg : image T (s, 2 ^ l.length) = some r := by
    have ha : OpD.addStr ([] : OpD FStr ℂ) (s, 2 ^ l.length) = [(s, 2 ^ l.length)] := rfl
    unfold image OpD.transform
    rw [ha]
    have hm : [((s, 2 ^ l.length) : Term FStr ℂ)].mapM T = some [r] := by
      rw [List.mapM_cons, e1]; rfl
    rw [hm]
    show some (OpD.clean (r.foldl OpD.addStr [])) = some r
    rw [OpD.foldl_addStr_fresh r [] (by simpa [UniqueKeys] using e2), List.nil_append]
    congr 1
    unfold OpD.clean
    rw [List.filter_eq_self]
    intro u hu
    have : small u.2 = false := by
      rw [← Bool.not_eq_true, small_complex, hI u hu]; norm_num
    simp [this]
  refine ⟨r, himg, ?_⟩
  let B : POp ℂ := (bools l.length).map (fun w => (key N rev S l w, 2 ^ l.length * amp N rev S l w))
  have hB : denPO B = denPO r := by
    rw [e6]
    show denPO B = (2 : ℂ) ^ l.length • F s
    rw [C.den s hs, ← hl, expand C.tab l hg]
    unfold denPO
    rw [denD_eq_sum, List.map_map, ← sum_map_smul]
    congr 1
    apply List.map_congr_left
    intro w _
    simp [Function.comp, smul_smul]
  have hBl : ∀ t ∈ B, t.1.length = N := by
    intro t ht
    obtain ⟨w, _, rfl⟩ := List.mem_map.mp ht
    exact key_len C.tab l hg w
  have hrl : ∀ t ∈ r, t.1.length = N := fun t ht => (e3 t ht).trans hs
  have hcoef := coef_unique N B r hBl hrl hB
  have hkeys : B.map (·.1) = (bools l.length).map (key N rev S l) := by
    simp [B, Function.comp_def]
  have hsub : r.map (·.1) ⊆ B.map (·.1) := by
    intro x hx
    by_contra hn
    obtain ⟨u, hu, rfl⟩ := List.mem_map.mp hx
    have a1 := OpD.coef_of_mem r e2 u hu
    rw [← hcoef, OpD.coef_of_not_mem B u.1 hn] at a1
    have := hI u hu
    rw [← a1, norm_zero] at this
    exact zero_ne_one this
  have hperm : (r.map (·.1)).Perm (B.map (·.1)) := by
    refine (List.subperm_of_subset e2 hsub).perm_of_length_le ?_
    rw [hkeys, List.length_map, List.length_map, length_bools, e4]
  refine ⟨e2, e4, hI, hkeys ▸ hperm, ?_⟩
  intro w hw
  have hBu : UniqueKeys B := hperm.nodup_iff.mp e2
  have := OpD.coef_of_mem B hBu (key N rev S l w, 2 ^ l.length * amp N rev S l w)
    (List.mem_map.mpr ⟨w, (mem_bools _ _).mpr hw, rfl⟩)
  rw [← hcoef]; exact this

theorem entryOf_coef (r : POp ℂ) (h : UniqueKeys r) (s : PStr) : entryOf r s = (starRingEnd ℂ) (coef r s) := by
  unfold entryOf
  cases hf : r.find? (fun t => decide (t.1 = s)) with
  | none =>
    rw [OpD.coef_of_not_mem, map_zero]
    intro hm
    obtain ⟨u, hu, he⟩ := List.mem_map.mp hm
    have := List.find?_eq_none.mp hf u hu
    simp [he] at this
  | some t =>
    have h1 := List.mem_of_find?_eq_some hf
    have h2 : t.1 = s := by simpa using List.find?_some hf
    rw [← h2, OpD.coef_of_mem r h t h1]
    rfl

end HQCA.SymProj
