import Verif.Model.DMatrix
import Verif.Proofs.FermiStr

/-!
# Lemmas on `order_as_D_matrix`
-/

set_option linter.unusedSectionVars false

namespace HQCA.DMat
variable {K : Type} [Coef K]

/-- Only `+` and `-`. -/
def PM (w : List (ℕ × FL)) : Prop := ∀ a ∈ w, a.2 = .cr ∨ a.2 = .an

/-- No `-` stands left of a `+` with the same orbital. -/
def NoHole (w : List (ℕ × FL)) : Prop :=
  w.Pairwise (fun a b => ¬ (a.2 = .an ∧ b.2 = .cr ∧ a.1 = b.1))

/-- Number of pairs `-` left of `+`. -/
def inv : List (ℕ × FL) → ℕ
  | [] => 0
  | a :: l => (if a.2 = .an then l.countP (fun b => b.2 = .cr) else 0) + inv l

theorem expandFrom_pm (k : ℕ) (s : FStr) :
    PM ((s.zipIdx k).flatMap (fun x => expandLetter x.2 x.1)) := by
  intro a ha
  obtain ⟨x, _, hx⟩ := List.mem_flatMap.mp ha
  obtain ⟨f, n⟩ := x
  cases f <;> simp [expandLetter] at hx
  · simp [hx]
  · simp [hx]
  · rcases hx with rfl | rfl <;> simp
  · rcases hx with rfl | rfl <;> simp

theorem expandFrom_ge (k : ℕ) (s : FStr) :
    ∀ a ∈ (s.zipIdx k).flatMap (fun x => expandLetter x.2 x.1), k ≤ a.1 := by
  intro a ha
  obtain ⟨x, hx', hx⟩ := List.mem_flatMap.mp ha
  obtain ⟨f, n⟩ := x
  have hn : k ≤ n := (List.mem_zipIdx hx').1
  cases f <;> simp [expandLetter] at hx
  · subst hx; exact hn
  · subst hx; exact hn
  · rcases hx with rfl | rfl <;> exact hn
  · rcases hx with rfl | rfl <;> exact hn

theorem expandFrom_noHole (k : ℕ) (s : FStr) (h : FL.h ∉ s) :
    NoHole ((s.zipIdx k).flatMap (fun x => expandLetter x.2 x.1)) := by
  induction s generalizing k with
  | nil => exact List.Pairwise.nil
  | cons f s ih =>
    rw [List.zipIdx_cons, List.flatMap_cons]
    refine List.pairwise_append.mpr ⟨?_, ih (k+1) (fun h' => h (by simp [h'])), ?_⟩
    · cases f <;> simp [expandLetter]
      exact h (by simp)
    · intro a ha b hb
      have hb' := expandFrom_ge (k+1) s b hb
      have ha' : a.1 = k := by
        cases f <;> simp [expandLetter] at ha
        · subst ha; rfl
        · subst ha; rfl
        · rcases ha with rfl | rfl <;> rfl
        · rcases ha with rfl | rfl <;> rfl
      rintro ⟨_, _, h3⟩
      omega

theorem expandFrom_word (k : ℕ) (s : FStr) :
    (wordF ((s.zipIdx k).flatMap (fun x => expandLetter x.2 x.1)) : Oper K) = denF k s := by
  induction s generalizing k with
  | nil => rfl
  | cons f s ih =>
    rw [List.zipIdx_cons, List.flatMap_cons]
    have e : ∀ l l' : List (ℕ × FL), (wordF (l ++ l') : Oper K) = wordF l * wordF l' := by
      intro l l'; simp [wordF]
    rw [e, ih, denF]
    congr 1
    cases f <;> simp [expandLetter, wordF, fop]

theorem findSwap_some (w pre post : List (ℕ × FL)) (a b : ℕ × FL) (hw : PM w)
    (h : findSwap w = some (pre, a, b, post)) : w = pre ++ a :: b :: post ∧ a.2 = .an ∧ b.2 = .cr := by
  induction w generalizing pre with
  | nil => simp [findSwap] at h
  | cons x w ih =>
    cases w with
    | nil => simp [findSwap] at h
    | cons y w =>
      unfold findSwap at h
      split at h
      · rename_i hc
        simp only [Option.some.injEq, Prod.mk.injEq] at h
        obtain ⟨rfl, rfl, rfl, rfl⟩ := h
        refine ⟨rfl, hc.2, ?_⟩
        rcases hw y (by simp) with h1 | h1
        · exact h1
        · exact absurd (hc.2.trans h1.symm) hc.1
      · rcases hf : findSwap (y :: w) with _ | ⟨p', a', b', q'⟩
        · simp [hf] at h
        · simp only [hf, Option.map_some, Option.some.injEq, Prod.mk.injEq] at h
          obtain ⟨rfl, rfl, rfl, rfl⟩ := h
          obtain ⟨h1, h2⟩ := ih p' (fun z hz => hw z (by simp [hz])) hf
          exact ⟨by rw [h1]; rfl, h2⟩

theorem findSwap_none (w : List (ℕ × FL)) (hw : PM w) (h : findSwap w = none) :
    ∃ u v, w = u ++ v ∧ (∀ a ∈ u, a.2 = .cr) ∧ (∀ a ∈ v, a.2 = .an) := by
  induction w with
  | nil => exact ⟨[], [], rfl, by simp, by simp⟩
  | cons x w ih =>
    have hw' : PM w := fun z hz => hw z (by simp [hz])
    cases w with
    | nil =>
      rcases hw x (by simp) with h1 | h1
      · exact ⟨[x], [], rfl, by simpa using h1, by simp⟩
      · exact ⟨[], [x], rfl, by simp, by simpa using h1⟩
    | cons y w =>
      unfold findSwap at h
      split at h
      · cases h
      · rename_i hc
        have hf : findSwap (y :: w) = none := by simpa using h
        obtain ⟨u, v, h1, h2, h3⟩ := ih hw' hf
        rcases hw x (by simp) with hx | hx
        · refine ⟨x :: u, v, by rw [h1]; rfl, ?_, h3⟩
          intro a ha
          rcases List.mem_cons.mp ha with rfl | ha
          · exact hx
          · exact h2 a ha
        · have hy : y.2 = .an := by
            by_contra hy
            exact hc ⟨fun h' => hy (h' ▸ hx), hx⟩
          cases u with
          | nil =>
            refine ⟨[], x :: v, by rw [h1]; rfl, by simp, ?_⟩
            intro a ha
            rcases List.mem_cons.mp ha with rfl | ha
            · exact hx
            · exact h3 a ha
          | cons z u =>
            have : y = z := by simp at h1; exact h1.1
            have := h2 z (by simp)
            subst y
            rw [this] at hy; cases hy

theorem switches_const (x : FL) (l : List (ℕ × FL)) (h : ∀ a ∈ l, a.2 = x) : switches l = 0 := by
  induction l with
  | nil => rfl
  | cons a l ih =>
    cases l with
    | nil => rfl
    | cons b l =>
      unfold switches
      rw [if_pos ((h a (by simp)).trans (h b (by simp)).symm), ih (fun c hc => h c (by simp [hc]))]

theorem ordered_of (u v : List (ℕ × FL)) (hu : ∀ a ∈ u, a.2 = .cr) (hv : ∀ a ∈ v, a.2 = .an)
    (hu0 : u ≠ []) (hv0 : v ≠ []) : ordered (u ++ v) = true := by
  have key : switches (u ++ v) = 1 := by
    induction u with
    | nil => exact absurd rfl hu0
    | cons a u ih =>
      cases u with
      | nil =>
        cases v with
        | nil => exact absurd rfl hv0
        | cons b v =>
          show switches (a :: b :: v) = 1
          unfold switches
          rw [if_neg, switches_const .an (b :: v) hv]
          rw [hu a (by simp), hv b (by simp)]; simp
      | cons b u =>
        show switches (a :: b :: (u ++ v)) = 1
        unfold switches
        rw [if_pos ((hu a (by simp)).trans (hu b (by simp)).symm), zero_add]
        exact ih (fun c hc => hu c (by simp [hc])) (by simp)
  unfold ordered
  rw [key]
  cases u with
  | nil => exact absurd rfl hu0
  | cons a u => simp [hu a (by simp)]

theorem inv_append (u v : List (ℕ × FL)) :
    inv (u ++ v) = inv u + inv v + u.countP (fun a => a.2 = .an) * v.countP (fun b => b.2 = .cr) := by
  induction u with
  | nil => simp [inv]
  | cons a u ih =>
    rw [List.cons_append, inv, inv, ih, List.countP_append, List.countP_cons]
    by_cases h : a.2 = .an
    · simp [h]; ring
    · simp [h]

theorem inv_swap (pre post : List (ℕ × FL)) (a b : ℕ × FL) (ha : a.2 = .an) (hb : b.2 = .cr) :
    inv (pre ++ a :: b :: post) = inv (pre ++ b :: a :: post) + 1 := by
  rw [inv_append, inv_append]
  simp [inv, List.countP_cons, ha, hb]
  ring

/-- What an entry means. -/
def den (e : Entry K) : Oper K := e.1 • wordF e.2

/-- Creation operators left of annihilation operators. -/
def Dform (w : List (ℕ × FL)) : Prop :=
  ∃ u v, w = u ++ v ∧ (∀ a ∈ u, a.2 = .cr) ∧ (∀ a ∈ v, a.2 = .an)

theorem switches_one (w : List (ℕ × FL)) (hw : PM w) (h : ordered w = true) : Dform w := by
  rcases hf : findSwap w with _ | ⟨pre, a, b, post⟩
  · exact findSwap_none w hw hf
  · exfalso
    obtain ⟨h1, h2, h3⟩ := findSwap_some w pre post a b hw hf
    unfold ordered at h
    rw [Bool.and_eq_true, decide_eq_true_eq, decide_eq_true_eq] at h
    -- first letter is cr, then an, then cr: at least two switches
    have sw : ∀ (x : ℕ × FL) (l : List (ℕ × FL)) , a.2 = .an → b.2 = .cr → x.2 = .cr → PM (x :: l) →
        2 ≤ switches (x :: (l ++ a :: b :: post)) := by
      intro x l
      induction l generalizing x with
      | nil =>
        intro ha hb hx _
        show 2 ≤ switches (x :: a :: b :: post)
        unfold switches
        rw [if_neg (by rw [hx, ha]; simp)]
        unfold switches
        rw [if_neg (by rw [ha, hb]; simp)]
        omega
      | cons y l ih =>
        intro ha hb hx hp
        show 2 ≤ switches (x :: y :: (l ++ a :: b :: post))
        unfold switches
        rcases hp y (by simp) with hy | hy
        · have := ih y ha hb hy (fun z hz => hp z (by simp [hz]))
          rw [if_pos (hx.trans hy.symm)]; omega
        · rw [if_neg (by rw [hx, hy]; simp)]
          have : ∀ (y : ℕ × FL) (l : List (ℕ × FL)), y.2 = .an → PM (y :: l) →
              1 ≤ switches (y :: (l ++ a :: b :: post)) := by
            intro y l
            induction l generalizing y with
            | nil =>
              intro hy _
              show 1 ≤ switches (y :: a :: b :: post)
              unfold switches
              rw [if_pos (hy.trans ha.symm)]
              unfold switches
              rw [if_neg (by rw [ha, hb]; simp)]
              omega
            | cons z l ih2 =>
              intro hy hp
              show 1 ≤ switches (y :: z :: (l ++ a :: b :: post))
              unfold switches
              rcases hp z (by simp) with hz | hz
              · rw [if_neg (by rw [hy, hz]; simp)]; omega
              · have := ih2 z hz (fun t ht => hp t (by simp [ht]))
                omega
          have := this y l hy (fun z hz => hp z (by simp [hz]))
          omega
    cases pre with
    | nil =>
      rw [h1] at h
      simp at h
      rw [h2] at h
      simp at h
    | cons x pre =>
      rw [h1] at h
      have hx : x.2 = .cr := by simpa using h.2
      have := sw x pre h2 h3 hx (fun z hz => hw z (by rw [h1]; simp at hz ⊢; tauto))
      simp only [List.cons_append] at h
      omega

theorem wordF_append (l l' : List (ℕ × FL)) : (wordF (l ++ l') : Oper K) = wordF l * wordF l' := by
  simp [wordF]

theorem word_swap (pre post : List (ℕ × FL)) (a b : ℕ × FL) (ha : a.2 = .an) (hb : b.2 = .cr)
    (hne : a.1 ≠ b.1) (c : K) :
    ((-c) • wordF (pre ++ b :: a :: post) : Oper K) = c • wordF (pre ++ a :: b :: post) := by
  have e1 : pre ++ b :: a :: post = pre ++ ([b, a] ++ post) := rfl
  have e2 : pre ++ a :: b :: post = pre ++ ([a, b] ++ post) := rfl
  rw [e1, e2, wordF_append, wordF_append, wordF_append, wordF_append]
  have : (wordF [b, a] : Oper K) = (-1 : K) • wordF [a, b] := by
    simp only [wordF, List.map_cons, List.map_nil, List.prod_cons, List.prod_nil, mul_one]
    have := fop_swap (K := K) (j := a.1) (k := b.1) hne a.2 b.2
    rw [this, ha, hb]
    simp [esign, FL.odd]
  rw [this, smul_mul_assoc, mul_smul_comm, smul_smul]
  congr 1; ring

/-- The loop on words without holes. -/
theorem loop_spec (N : ℕ) (w : List (ℕ × FL)) (c : K) (hw : PM w) (hh : NoHole w)
    (hcr : ∃ a ∈ w, a.2 = .cr) (han : ∃ a ∈ w, a.2 = .an) (n : ℕ) (hn : inv w < n) :
    ∃ c' w', loop N n c w = some [(c', w')] ∧ Dform w' ∧ w'.Perm w ∧
      (c' • wordF w' : Oper K) = c • wordF w := by
  induction n generalizing w c with
  | zero => omega
  | succ n ih =>
    have hne : w.isEmpty = false := by
      obtain ⟨a, ha, _⟩ := hcr
      cases w with
      | nil => simp at ha
      | cons => rfl
    unfold loop
    rw [hne, if_neg (by simp)]
    by_cases ho : ordered w = true
    · rw [if_pos ho]
      exact ⟨c, w, rfl, switches_one w hw ho, List.Perm.refl _, rfl⟩
    · rw [if_neg ho]
      rcases hf : findSwap w with _ | ⟨pre, a, b, post⟩
      · exfalso
        obtain ⟨u, v, rfl, hu, hv⟩ := findSwap_none w hw hf
        apply ho
        apply ordered_of u v hu hv
        · rintro rfl
          obtain ⟨a, ha, h1⟩ := hcr
          have := hv a (by simpa using ha)
          rw [h1] at this; cases this
        · rintro rfl
          obtain ⟨a, ha, h1⟩ := han
          have := hu a (by simpa using ha)
          rw [h1] at this; cases this
      · obtain ⟨h1, h2, h3⟩ := findSwap_some w pre post a b hw hf
        have hne' : a.1 ≠ b.1 := by
          intro he
          rw [h1] at hh
          have := (List.pairwise_append.mp hh).2.1
          exact (List.pairwise_cons.mp this).1 b (by simp) ⟨h2, h3, he⟩
        simp only [if_neg hne']
        have hperm : (pre ++ b :: a :: post).Perm w := by
          rw [h1]; exact List.Perm.append_left _ (List.Perm.swap _ _ _)
        have hnh : NoHole (pre ++ b :: a :: post) := by
          rw [h1] at hh
          unfold NoHole at hh ⊢
          rw [List.pairwise_append] at hh ⊢
          obtain ⟨g1, g2, g3⟩ := hh
          rw [List.pairwise_cons, List.pairwise_cons] at g2
          refine ⟨g1, ?_, ?_⟩
          · rw [List.pairwise_cons, List.pairwise_cons]
            refine ⟨?_, ?_, g2.2.2⟩
            · intro x hx
              rcases List.mem_cons.mp hx with rfl | hx
              · rintro ⟨h, _⟩; rw [h3] at h; cases h
              · exact g2.2.1 x hx
            · intro x hx; exact g2.1 x (by simp [hx])
          · intro x hx y hy
            exact g3 x hx y (by simp at hy ⊢; tauto)
        have hiv := inv_swap pre post a b h2 h3
        rw [← h1] at hiv
        obtain ⟨c', w', g1, g2, g3, g4⟩ := ih (pre ++ b :: a :: post) (-c)
          (fun x hx => hw x (hperm.mem_iff.mp hx)) hnh
          (by obtain ⟨x, hx, hx'⟩ := hcr; exact ⟨x, hperm.mem_iff.mpr hx, hx'⟩)
          (by obtain ⟨x, hx, hx'⟩ := han; exact ⟨x, hperm.mem_iff.mpr hx, hx'⟩)
          (by omega)
        refine ⟨c', w', g1, g2, g3.trans hperm, ?_⟩
        rw [g4, word_swap pre post a b h2 h3 hne' c, h1]

/-- Words with letters of one kind only: the loop never ends. -/
theorem loop_stuck (N : ℕ) (w : List (ℕ × FL)) (c : K) (h0 : w ≠ []) (x : FL) (h : ∀ a ∈ w, a.2 = x) (n : ℕ) :
    loop N n c w = none := by
  have hfs : findSwap w = none := by
    clear h0
    induction w with
    | nil => rfl
    | cons a w ih =>
      cases w with
      | nil => rfl
      | cons b w =>
        unfold findSwap
        rw [if_neg (fun hc => hc.1 ((h a (by simp)).trans (h b (by simp)).symm)),
          ih (fun y hy => h y (by simp [hy]))]
        rfl
  induction n with
  | zero => rfl
  | succ n ih =>
    unfold loop
    rw [if_neg (by simpa using h0), if_neg, hfs]
    · exact ih
    · unfold ordered; rw [switches_const x w h]; simp

end HQCA.DMat
