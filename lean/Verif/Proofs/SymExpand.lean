import Verif.Proofs.TransformAll
import Verif.Proofs.Independent
import Verif.Spec.Adjoint
import Verif.Model.SymProj

/-!
# Expansion of the images of all letter strings of one pattern, and its inverse

A transform maps the letter `o` on qubit `q` to `1/2 s1 + c2(o) s2`, where the strings `s1`, `s2` depend only on
whether `o` is in `{+,-}` or in `{p,h}`.  A string with `k` letters is a combination of `2^k` Pauli strings; the
`2^k` strings of the same pattern give back each of those Pauli strings.
-/

namespace HQCA.SymProj
open Transform

/-- Product of the letter operators, last letter leftmost (`rev = false`) or rightmost. -/
noncomputable def prodO (rev : Bool) (D : ℕ → FL → Oper ℂ) : List (ℕ × FL) → Oper ℂ
  | [] => 1
  | a :: l => if rev then D a.1 a.2 * prodO rev D l else prodO rev D l * D a.1 a.2

/-- The two letters of the same kind. -/
def alt (b : Bool) : FL → FL
  | .cr => if b then .an else .cr
  | .an => if b then .an else .cr
  | .p => if b then .h else .p
  | .h => if b then .h else .p
  | .i => .i

/-- All letter lists of the same pattern. -/
def vars : List (ℕ × FL) → List (List (ℕ × FL))
  | [] => [[]]
  | a :: l => (vars l).map (fun r => (a.1, alt false a.2) :: r) ++ (vars l).map (fun r => (a.1, alt true a.2) :: r)

/-- All lists of `n` bits. -/
def bools : ℕ → List (List Bool)
  | 0 => [[]]
  | n+1 => (bools n).map (fun w => false :: w) ++ (bools n).map (fun w => true :: w)

theorem mem_bools (n : ℕ) (w : List Bool) : w ∈ bools n ↔ w.length = n := by
  induction n generalizing w with
  | zero => simp [bools]
  | succ n ih =>
    cases w with
    | nil => simp [bools]
    | cons b w => cases b <;> simp [bools, ih]

theorem nodup_bools (n : ℕ) : (bools n).Nodup := by
  induction n with
  | zero => simp [bools]
  | succ n ih =>
    rw [bools, List.nodup_append]
    refine ⟨ih.map (fun a b h => (List.cons.inj h).2), ih.map (fun a b h => (List.cons.inj h).2), ?_⟩
    intro a ha b hb
    obtain ⟨x, _, rfl⟩ := List.mem_map.mp ha
    obtain ⟨y, _, rfl⟩ := List.mem_map.mp hb
    simp

theorem length_bools (n : ℕ) : (bools n).length = 2 ^ n := by
  induction n with
  | zero => rfl
  | succ n ih => simp [bools, ih, pow_succ]; ring

/-- Phase and string of a product of two Pauli strings. -/
noncomputable def ph (P Q : PStr) : ℂ := (pm (P, (1:ℂ)) (Q, 1)).2

theorem denP_mul_ph (P Q : PStr) (h : P.length = Q.length) :
    (denP 0 P * denP 0 Q : Oper ℂ) = ph P Q • denP 0 (List.zipWith posLetter P Q) := by
  have := pm_den (P, (1:ℂ)) (Q, 1) h 0
  simp only [one_smul] at this
  exact this.symm

theorem ph_unit (P Q : PStr) : (starRingEnd ℂ) (ph P Q) * ph P Q = 1 := by
  have : ∃ e : ℤ, ph P Q = Complex.I ^ e := by
    refine ⟨Pauli.exp1 (P.map PL.l) (P.map PL.r) (Q.map PL.l) (Q.map PL.r) +
      Pauli.exp2 (P.map PL.l) (P.map PL.r) (Q.map PL.l) (Q.map PL.r), ?_⟩
    unfold ph pm
    simp only [one_mul]
    exact (zpow_add₀ Complex.I_ne_zero _ _).symm
  obtain ⟨e, he⟩ := this
  rw [he, ← Complex.normSq_eq_conj_mul_self, Complex.normSq_eq_norm_sq]
  simp

/-- The string with label `b` of the letter class `o` at `q`. -/
def pick2 (S : ℕ → Bool → PStr × PStr) (a : ℕ × FL) (b : Bool) : PStr :=
  if b then (S a.1 (FLodd a.2)).2 else (S a.1 (FLodd a.2)).1

/-- Its coefficient. -/
noncomputable def cf (o : FL) (b : Bool) : ℂ := if b then c2 o else 1 / 2

/-- Pauli string with label `w`. -/
def key (N : ℕ) (rev : Bool) (S : ℕ → Bool → PStr × PStr) : List (ℕ × FL) → List Bool → PStr
  | a :: l, b :: w =>
    if rev then List.zipWith posLetter (pick2 S a b) (key N rev S l w)
    else List.zipWith posLetter (key N rev S l w) (pick2 S a b)
  | _, _ => List.replicate N .I

/-- Its coefficient. -/
noncomputable def amp (N : ℕ) (rev : Bool) (S : ℕ → Bool → PStr × PStr) : List (ℕ × FL) → List Bool → ℂ
  | a :: l, b :: w =>
    amp N rev S l w * cf a.2 b *
      (if rev then ph (pick2 S a b) (key N rev S l w) else ph (key N rev S l w) (pick2 S a b))
  | _, _ => 1

theorem key_cons (N : ℕ) (rev : Bool) (S : ℕ → Bool → PStr × PStr) (a : ℕ × FL) (l : List (ℕ × FL)) (b : Bool)
    (w : List Bool) : key N rev S (a :: l) (b :: w) =
      if rev then List.zipWith posLetter (pick2 S a b) (key N rev S l w)
      else List.zipWith posLetter (key N rev S l w) (pick2 S a b) := rfl

theorem amp_cons (N : ℕ) (rev : Bool) (S : ℕ → Bool → PStr × PStr) (a : ℕ × FL) (l : List (ℕ × FL)) (b : Bool)
    (w : List Bool) : amp N rev S (a :: l) (b :: w) = amp N rev S l w * cf a.2 b *
      (if rev then ph (pick2 S a b) (key N rev S l w) else ph (key N rev S l w) (pick2 S a b)) := rfl

/-- The transform's letter images are given by the strings `S`. -/
structure ClassTab (N : ℕ) (D : ℕ → FL → Oper ℂ) (S : ℕ → Bool → PStr × PStr) : Prop where
  len : ∀ q < N, ∀ b, (S q b).1.length = N ∧ (S q b).2.length = N
  den : ∀ q < N, ∀ o, o ≠ .i →
    D q o = (1 / 2 : ℂ) • denP 0 (S q (FLodd o)).1 + (c2 o : ℂ) • denP 0 (S q (FLodd o)).2

/-- Letters other than `i`, on qubits below `N`. -/
def Good (N : ℕ) (l : List (ℕ × FL)) : Prop := ∀ a ∈ l, a.1 < N ∧ a.2 ≠ .i

section
variable {N : ℕ} {rev : Bool} {D : ℕ → FL → Oper ℂ} {S : ℕ → Bool → PStr × PStr}

theorem pick2_len (h : ClassTab N D S) (a : ℕ × FL) (ha : a.1 < N) (b : Bool) : (pick2 S a b).length = N := by
  unfold pick2
  split
  · exact (h.len _ ha _).2
  · exact (h.len _ ha _).1

theorem key_len (h : ClassTab N D S) (l : List (ℕ × FL)) (hl : Good N l) (w : List Bool) :
    (key N rev S l w).length = N := by
  induction l generalizing w with
  | nil => cases w <;> simp [key]
  | cons a l ih =>
    cases w with
    | nil => simp [key]
    | cons b w =>
      have h1 := ih (fun x hx => hl x (by simp [hx])) w
      have h2 := pick2_len h a (hl a (by simp)).1 b
      unfold key
      split <;> simp [h1, h2]

theorem alt_class (b : Bool) (o : FL) : FLodd (alt b o) = FLodd o := by cases o <;> cases b <;> rfl
theorem alt_ne (b : Bool) (o : FL) (h : o ≠ .i) : alt b o ≠ .i := by cases o <;> cases b <;> simp_all [alt]

theorem vars_good (l : List (ℕ × FL)) (hl : Good N l) : ∀ r ∈ vars l, Good N r := by
  induction l with
  | nil => simp [vars, Good]
  | cons a l ih =>
    have ih' := ih (fun x hx => hl x (by simp [hx]))
    intro r hr
    have ha := hl a (by simp)
    rw [vars, List.mem_append] at hr
    rcases hr with hr | hr
    all_goals
      obtain ⟨u, hu, rfl⟩ := List.mem_map.mp hr
      intro x hx
      rcases List.mem_cons.mp hx with rfl | hx
      · exact ⟨ha.1, alt_ne _ _ ha.2⟩
      · exact ih' u hu x hx

theorem vars_length (l : List (ℕ × FL)) : ∀ r ∈ vars l, r.length = l.length := by
  induction l with
  | nil => simp [vars]
  | cons a l ih =>
    intro r hr
    rw [vars, List.mem_append] at hr
    rcases hr with hr | hr
    all_goals
      obtain ⟨u, hu, rfl⟩ := List.mem_map.mp hr
      simp [ih u hu]

theorem key_vars (l : List (ℕ × FL)) (w : List Bool) : ∀ r ∈ vars l, key N rev S r w = key N rev S l w := by
  induction l generalizing w with
  | nil => simp [vars]
  | cons a l ih =>
    intro r hr
    rw [vars, List.mem_append] at hr
    rcases hr with hr | hr
    all_goals
      obtain ⟨u, hu, rfl⟩ := List.mem_map.mp hr
      cases w with
      | nil => simp [key]
      | cons b w => simp [key, ih w u hu, pick2, alt_class]

theorem den_alt (h : ClassTab N D S) (a : ℕ × FL) (ha : a.1 < N ∧ a.2 ≠ .i) :
    D a.1 a.2 = cf a.2 false • denP 0 (pick2 S a false) + cf a.2 true • denP 0 (pick2 S a true) := by
  rw [h.den _ ha.1 _ ha.2]; rfl

/-- The inverse for one letter. -/
theorem inv_alt (h : ClassTab N D S) (a : ℕ × FL) (ha : a.1 < N ∧ a.2 ≠ .i) (b : Bool) :
    (denP 0 (pick2 S a b) : Oper ℂ) =
      (2 * (starRingEnd ℂ) (cf (alt false a.2) b)) • D a.1 (alt false a.2) +
      (2 * (starRingEnd ℂ) (cf (alt true a.2) b)) • D a.1 (alt true a.2) := by
  rw [h.den _ ha.1 _ (alt_ne false _ ha.2), h.den _ ha.1 _ (alt_ne true _ ha.2), alt_class, alt_class]
  obtain ⟨q, o⟩ := a
  have hI : Coef.I = Complex.I := rfl
  have hI2 : Complex.I * Complex.I = -1 := Complex.I_mul_I
  cases o
  · exact absurd rfl ha.2
  all_goals
    cases b <;>
    · simp only [alt, cf, c2, pick2, if_true, if_false, Bool.false_eq_true, map_mul, map_sub, map_one, map_zero,
        map_div₀, map_ofNat, hI, Complex.conj_I, smul_add, smul_smul]
      first | module | (match_scalars <;> first | linear_combination hI2 | linear_combination (-hI2) | ring)

theorem sum_map_smul {ι : Type} (c : ℂ) (l : List ι) (f : ι → Oper ℂ) :
    (l.map (fun x => c • f x)).sum = c • (l.map f).sum := by
  induction l with
  | nil => simp
  | cons a l ih => simp [ih, smul_add]

theorem sum_map_mul_right {ι : Type} (X : Oper ℂ) (l : List ι) (f : ι → Oper ℂ) :
    (l.map (fun x => f x * X)).sum = (l.map f).sum * X := by
  induction l with
  | nil => simp
  | cons a l ih => simp [ih, add_mul]

theorem sum_map_mul_left {ι : Type} (X : Oper ℂ) (l : List ι) (f : ι → Oper ℂ) :
    (l.map (fun x => X * f x)).sum = X * (l.map f).sum := by
  induction l with
  | nil => simp
  | cons a l ih => simp [ih, mul_add]

/-- **Expansion.** -/
theorem expand (h : ClassTab N D S) (l : List (ℕ × FL)) (hl : Good N l) :
    prodO rev D l = ((bools l.length).map (fun w => amp N rev S l w • (denP 0 (key N rev S l w) : Oper ℂ))).sum := by
  induction l with
  | nil => simp [prodO, bools, amp, key, denP_replicate_I]
  | cons a l ih =>
    have hl' : Good N l := fun x hx => hl x (by simp [hx])
    have ha := hl a (by simp)
    have step : ∀ b w, amp N rev S (a :: l) (b :: w) • (denP 0 (key N rev S (a :: l) (b :: w)) : Oper ℂ) =
        if rev then (cf a.2 b • denP 0 (pick2 S a b)) * (amp N rev S l w • denP 0 (key N rev S l w))
        else (amp N rev S l w • denP 0 (key N rev S l w)) * (cf a.2 b • denP 0 (pick2 S a b)) := by
      intro b w
      have h1 := key_len (rev := rev) h l hl' w
      have h2 := pick2_len h a ha.1 b
      rw [amp_cons, key_cons]
      cases rev
      · simp only [Bool.false_eq_true, if_false]
        rw [smul_mul_smul_comm, denP_mul_ph _ _ (h1.trans h2.symm), smul_smul]
      · simp only [if_true]
        rw [smul_mul_smul_comm, denP_mul_ph _ _ (h2.trans h1.symm), smul_smul]
        congr 1; ring
    rw [List.length_cons, bools, List.map_append, List.sum_append, List.map_map, List.map_map]
    simp only [Function.comp_def, step]
    cases rev
    · simp only [Bool.false_eq_true, if_false]
      rw [sum_map_mul_right, sum_map_mul_right, ← ih hl', ← mul_add, ← den_alt h a ha]
      rfl
    · simp only [if_true]
      rw [sum_map_mul_left, sum_map_mul_left, ← ih hl', ← add_mul, ← den_alt h a ha]
      rfl

/-- **Inversion.** Every Pauli string of the expansion is recovered from the images of all strings of the pattern. -/
theorem invert (h : ClassTab N D S) (l : List (ℕ × FL)) (hl : Good N l) (w : List Bool) (hw : w.length = l.length) :
    (denP 0 (key N rev S l w) : Oper ℂ) =
      ((vars l).map (fun r => (2 ^ l.length * (starRingEnd ℂ) (amp N rev S r w)) • prodO rev D r)).sum := by
  induction l generalizing w with
  | nil =>
    have : w = [] := List.length_eq_zero_iff.mp hw
    subst this
    simp [vars, amp, key, prodO, denP_replicate_I]
  | cons a l ih =>
    cases w with
    | nil => simp at hw
    | cons b w =>
      have hw' : w.length = l.length := by simpa using hw
      have hl' : Good N l := fun x hx => hl x (by simp [hx])
      have ha := hl a (by simp)
      have h1 := key_len (rev := rev) h l hl' w
      have h2 := pick2_len h a ha.1 b
      have ih' := ih hl' w hw'
      have hsum : ∀ c : Bool, ((vars l).map (fun r => (2 ^ (l.length + 1) *
            (starRingEnd ℂ) (amp N rev S ((a.1, alt c a.2) :: r) (b :: w))) • prodO rev D ((a.1, alt c a.2) :: r))).sum =
          (starRingEnd ℂ) (if rev then ph (pick2 S a b) (key N rev S l w) else ph (key N rev S l w) (pick2 S a b)) •
            (if rev then ((2 * (starRingEnd ℂ) (cf (alt c a.2) b)) • D a.1 (alt c a.2)) * denP 0 (key N rev S l w)
             else denP 0 (key N rev S l w) * ((2 * (starRingEnd ℂ) (cf (alt c a.2) b)) • D a.1 (alt c a.2))) := by
        intro c
        rw [ih']
        have e : ∀ r ∈ vars l, (2 ^ (l.length + 1) *
              (starRingEnd ℂ) (amp N rev S ((a.1, alt c a.2) :: r) (b :: w))) • prodO rev D ((a.1, alt c a.2) :: r) =
            (starRingEnd ℂ) (if rev then ph (pick2 S a b) (key N rev S l w) else ph (key N rev S l w) (pick2 S a b)) •
              (if rev then ((2 * (starRingEnd ℂ) (cf (alt c a.2) b)) • D a.1 (alt c a.2)) *
                  ((2 ^ l.length * (starRingEnd ℂ) (amp N rev S r w)) • prodO rev D r)
               else ((2 ^ l.length * (starRingEnd ℂ) (amp N rev S r w)) • prodO rev D r) *
                  ((2 * (starRingEnd ℂ) (cf (alt c a.2) b)) • D a.1 (alt c a.2))) := by
          intro r hr
          have ek := key_vars (N := N) (rev := rev) (S := S) l w r hr
          have ep : pick2 S (a.1, alt c a.2) b = pick2 S a b := by unfold pick2; rw [alt_class]
          rw [amp_cons, prodO, ek, ep]
          cases rev
          · simp only [Bool.false_eq_true, if_false, smul_mul_smul_comm, smul_smul, map_mul]
            congr 1; ring
          · simp only [if_true, smul_mul_smul_comm, smul_smul, map_mul]
            congr 1; ring
        rw [List.map_congr_left e, sum_map_smul]
        congr 1
        cases rev
        · simp only [Bool.false_eq_true, if_false]; rw [sum_map_mul_right]
        · simp only [if_true]; rw [sum_map_mul_left]
      rw [vars, List.map_append, List.sum_append, List.map_map, List.map_map]
      simp only [Function.comp_def, List.length_cons]
      rw [hsum false, hsum true, ← smul_add]
      have hunit : ∀ P Q : PStr, P.length = Q.length → (denP 0 (List.zipWith posLetter P Q) : Oper ℂ) =
          (starRingEnd ℂ) (ph P Q) • (denP 0 P * denP 0 Q) := by
        intro P Q hPQ
        rw [denP_mul_ph P Q hPQ, smul_smul, ph_unit, one_smul]
      rw [key_cons]
      cases rev
      · simp only [Bool.false_eq_true, if_false]
        rw [hunit _ _ (h1.trans h2.symm), ← mul_add, ← inv_alt h a ha b]
      · simp only [if_true]
        rw [hunit _ _ (h2.trans h1.symm), ← add_mul, ← inv_alt h a ha b]

end
end HQCA.SymProj
