import Verif.Model.LineSearch
import Mathlib.Tactic.Linarith
import Mathlib.Tactic.Ring
import Mathlib.Tactic.NormNum
import Mathlib.Data.List.Induction

/-! # Invariants of the ACSE line search -/

set_option linter.unusedSectionVars false
namespace HQCA
namespace LineSearch
variable {F : Type} [Field F] [LinearOrder F] [IsStrictOrderedRing F] {V : Type}

/-- Sufficient decrease at a step. -/
def SD (C : Cfg F V) (a : F) : Prop := C.phi a ≤ C.fzed + C.c1 * a * C.gzed

theorem safeguard_lt {l h j : F} (hlh : l < h) : l < safeguard l h j ∧ safeguard l h j < h := by
  unfold safeguard
  have hs : ¬ l > h := not_lt.mpr hlh.le
  simp only [hs, if_false, one_mul, mul_one]
  split_ifs with h1 h2 h3
  · constructor <;> linarith
  · constructor <;> linarith
  · constructor <;> linarith
  · push Not at h1 h2 h3
    have hd : 0 < 5 / 100 * (h - l) := mul_pos (by norm_num) (by linarith)
    refine ⟨lt_of_le_of_ne h3.2 ?_, lt_of_le_of_ne h3.1 ?_⟩
    · rintro rfl; simp at h2; linarith
    · rintro rfl; simp at h1; linarith

theorem safeguard_ge {l h j : F} (hlh : h ≤ l) : h ≤ safeguard l h j ∧ safeguard l h j ≤ l := by
  unfold safeguard
  have hd : 5 / 100 * (h - l) ≤ 0 := mul_nonpos_of_nonneg_of_nonpos (by norm_num) (by linarith)
  have n1 : ¬ |h - j| < 5 / 100 * (h - l) := by have := abs_nonneg (h - j); intro h; linarith
  have n2 : ¬ |l - j| < 5 / 100 * (h - l) := by have := abs_nonneg (l - j); intro h; linarith
  simp only [n1, n2, if_false]
  rcases eq_or_lt_of_le hlh with rfl | hlt
  · simp only [gt_iff_lt, lt_irrefl, if_false, one_mul, mul_one]
    split_ifs with h3
    · constructor <;> linarith
    · push Not at h3; exact ⟨h3.2, h3.1⟩
  · simp only [gt_iff_lt, hlt, if_true]
    split_ifs with h3
    · constructor <;> linarith
    · push Not at h3; constructor <;> linarith [h3.1, h3.2]

/-- What holds at the head of the loop of `_zoom` when it was entered with upper end `H`. -/
structure ZInv (C : Cfg F V) (H : F) (s : ZSt F V) : Prop where
  lH : s.l < H
  hH : s.h ≤ H
  l0 : 0 ≤ s.l
  h0 : 0 ≤ s.h
  fl : s.fl = C.phi s.l
  fh : s.fh = C.phi s.h
  old : ∀ b ∈ s.evals, SD C b → b ≠ H → s.fl ≤ C.phi b
  gj : ∀ g, s.gj = some g → g = C.dphi s.l ∧ ∃ pre post, s.evals = pre ++ s.l :: post ∧
    ∀ b ∈ pre, SD C b → b ≠ H → s.fl < C.phi b

theorem ZInv.trial {C : Cfg F V} {H : F} {s : ZSt F V} (I : ZInv C H s) {j : F} (hj : trial C s = some j) :
    0 ≤ j ∧ j < H := by
  obtain ⟨x, -, rfl⟩ := Option.map_eq_some_iff.mp hj
  rcases lt_or_ge s.l s.h with h | h
  · have := safeguard_lt (j := x) h
    exact ⟨I.l0.trans this.1.le, lt_of_lt_of_le this.2 I.hH⟩
  · have := safeguard_ge (j := x) h
    exact ⟨I.h0.trans this.1, lt_of_le_of_lt this.2 I.lH⟩

theorem ZInv.body {C : Cfg F V} {H : F} {s : ZSt F V} (I : ZInv C H s) {j : F} (h0 : 0 ≤ j) (hH : j < H) :
    ZInv C H (zoomBody C s j).1 := by
  unfold zoomBody
  by_cases ht : tooHigh C s j = true
  · simp only [ht, if_true]
    refine ⟨I.lH, hH.le, I.l0, h0, I.fl, rfl, ?_, ?_⟩
    · intro b hb hsd hne
      rcases List.mem_append.mp hb with hb | hb
      · exact I.old b hb hsd hne
      · obtain rfl := List.mem_singleton.mp hb
        simp only [tooHigh, Bool.or_eq_true, decide_eq_true_eq] at ht
        rcases ht with ht | ht
        · exact absurd hsd (not_le.mpr ht)
        · exact ht
    · intro g hg
      obtain ⟨e, pre, post, hev, hpre⟩ := I.gj g hg
      exact ⟨e, pre, post ++ [j], by simp [hev], hpre⟩
  · simp only [ht, Bool.false_eq_true, if_false]
    simp only [tooHigh, Bool.or_eq_true, decide_eq_true_eq, not_or, not_lt, not_le, ge_iff_le, gt_iff_lt] at ht
    have hold : ∀ b ∈ s.evals ++ [j], SD C b → b ≠ H → C.phi j ≤ C.phi b := by
      intro b hb hsd hne
      rcases List.mem_append.mp hb with hb | hb
      · exact ht.2.le.trans (I.old b hb hsd hne)
      · rw [List.mem_singleton.mp hb]
    have hg : ∀ g, some (C.dphi j) = some g → g = C.dphi j ∧ ∃ pre post, s.evals ++ [j] = pre ++ j :: post ∧
        ∀ b ∈ pre, SD C b → b ≠ H → C.phi j < C.phi b := by
      intro g hg
      exact ⟨(Option.some.inj hg).symm, s.evals, [], rfl, fun b hb hsd hne => lt_of_lt_of_le ht.2 (I.old b hb hsd hne)⟩
    split_ifs
    · exact ⟨hH, I.lH.le, h0, I.l0, rfl, I.fl, hold, hg⟩
    · exact ⟨hH, I.hH, h0, I.h0, rfl, I.fh, hold, hg⟩

theorem zoomBody_evals (C : Cfg F V) (s : ZSt F V) (j : F) : (zoomBody C s j).1.evals = s.evals ++ [j] := by
  unfold zoomBody; dsimp only; split_ifs <;> rfl

theorem zoomBody_done {C : Cfg F V} {s : ZSt F V} {j : F} (h : (zoomBody C s j).2 = true) :
    SD C j ∧ |(C.dphi j).2| ≤ -C.c2 * C.gzed ∧ (zoomBody C s j).1.gj = some (C.dphi j) := by
  unfold zoomBody at h ⊢
  by_cases ht : tooHigh C s j = true
  · simp [ht] at h
  · simp only [ht, Bool.false_eq_true, if_false] at h ⊢
    simp only [tooHigh, Bool.or_eq_true, decide_eq_true_eq, not_or, not_lt, not_le, ge_iff_le, gt_iff_lt] at ht
    split_ifs at h ⊢ with h1
    · exact ⟨ht.1, of_decide_eq_true h, rfl⟩
    · exact ⟨ht.1, of_decide_eq_true h, rfl⟩

/-- The tracked best is the first of the lowest evaluated energies, when one is below zero. -/
theorem best_spec (phi : F → F) (evals : List F) :
    ((best phi evals).2.2 = false → best phi evals = (0, 1, false) ∧ ∀ a ∈ evals, 0 ≤ phi a) ∧
    ((best phi evals).2.2 = true → ∃ pre post, evals = pre ++ (best phi evals).2.1 :: post ∧
      (best phi evals).1 = phi (best phi evals).2.1 ∧ phi (best phi evals).2.1 < 0 ∧
      (∀ a ∈ pre, phi (best phi evals).2.1 < phi a) ∧ ∀ a ∈ post, phi (best phi evals).2.1 ≤ phi a) := by
  induction evals using List.reverseRecOn with
  | nil => simp [best]
  | append_singleton l a ih =>
    have e : best phi (l ++ [a]) = if phi a < (best phi l).1 then (phi a, a, true) else best phi l := by
      unfold best; rw [List.foldl_append]; rfl
    rw [e]
    cases hb : (best phi l).2.2 with
    | false =>
      obtain ⟨h0, hl⟩ := ih.1 hb
      rw [h0]
      by_cases ha : phi a < 0
      · rw [if_pos ha]
        refine ⟨by simp, fun _ => ⟨l, [], rfl, rfl, ha, fun b hb => lt_of_lt_of_le ha (hl b hb), by simp⟩⟩
      · rw [if_neg ha]
        refine ⟨fun _ => ⟨rfl, ?_⟩, by simp⟩
        intro b hb
        rcases List.mem_append.mp hb with hb | hb
        · exact hl b hb
        · rw [List.mem_singleton.mp hb]; exact not_lt.mp ha
    | true =>
      obtain ⟨pre, post, hl, h1, h2, h3, h4⟩ := ih.2 hb
      by_cases ha : phi a < (best phi l).1
      · rw [if_pos ha]
        rw [h1] at ha
        refine ⟨by simp, fun _ => ⟨l, [], rfl, rfl, ha.trans h2, ?_, by simp⟩⟩
        intro b hb
        rw [hl] at hb
        rcases List.mem_append.mp hb with hb | hb
        · exact ha.trans (h3 b hb)
        · rcases List.mem_cons.mp hb with rfl | hb
          · exact ha
          · exact lt_of_lt_of_le ha (h4 b hb)
      · rw [if_neg ha]
        refine ⟨by simp [hb], fun _ => ⟨pre, post ++ [a], ?_, h1, h2, h3, ?_⟩⟩
        · conv_lhs => rw [hl]
          simp
        · intro b hb
          rcases List.mem_append.mp hb with hb | hb
          · exact h4 b hb
          · rw [List.mem_singleton.mp hb, ← h1]; exact not_lt.mp ha

/-- Two positions in a list: if every element before `j` is dearer than `j`, and every (relevant) element before `l` is
dearer than `l`, a tie between `j` and `l` means they are the same. -/
theorem no_tie {phi : F → F} {P : F → Prop} {j l : F} {pre post pre' post' : List F}
    (h : pre ++ j :: post = pre' ++ l :: post') (h1 : ∀ a ∈ pre, phi j < phi a)
    (h2 : ∀ b ∈ pre', P b → phi l < phi b) (hP : P j) (ht : phi j = phi l) : j = l := by
  rw [List.append_eq_append_iff] at h
  rcases h with ⟨a, rfl, ha⟩ | ⟨a, rfl, ha⟩
  · cases a with
    | nil => simp at ha; exact ha.1
    | cons x a =>
      simp at ha
      obtain ⟨rfl, -⟩ := ha
      have := h2 j (by simp) hP
      rw [ht] at this; exact absurd this (lt_irrefl _)
  · cases a with
    | nil => simp at ha; exact ha.1.symm
    | cons x a =>
      simp at ha
      obtain ⟨rfl, -⟩ := ha
      have := h1 l (by simp)
      rw [ht] at this; exact absurd this (lt_irrefl _)

/-- What a result of the search satisfies. -/
structure Good (C : Cfg F V) (r : Res F V) : Prop where
  f : r.f = C.phi r.alp
  ok : r.err = false → SD C r.alp ∧ |(C.dphi r.alp).2| ≤ -C.c2 * C.gzed ∧ r.gs = (C.dphi r.alp).2
  er : r.err = true → SD C r.alp → (best C.phi r.evals).2.2 = true → (best C.phi r.evals).2.1 = r.alp →
    r.gs = (C.dphi r.alp).2

theorem zoomErr_good {C : Cfg F V} {H : F} {s : ZSt F V} {j : F} (hf : C.fzed = C.phi 0) (hc : 0 ≤ C.c1)
    (hg : C.gzed < 0) (I : ZInv C H s) (h0 : 0 ≤ j) (hH : j < H) (hj : j ∈ s.evals) : Good C (zoomErr C s j) := by
  unfold zoomErr
  dsimp only
  have fresh : ∀ (evals : List F), evals = s.evals → C.phi j ≤ s.fl → SD C j → (best C.phi evals).2.2 = true →
      (best C.phi evals).2.1 = j → (s.gj.getD (C.dphi j)).2 = (C.dphi j).2 := by
    intro evals he hle hsd hb hbj
    subst he
    cases hgj : s.gj with
    | none => rfl
    | some g =>
      obtain ⟨e, pre', post', hev, hpre⟩ := I.gj g hgj
      have htie : C.phi j = C.phi s.l := le_antisymm (hle.trans I.fl.le) (I.fl ▸ I.old j hj hsd hH.ne)
      obtain ⟨pre, post, h1, h2, h3, h4, h5⟩ := (best_spec C.phi s.evals).2 hb
      rw [hbj] at h1 h4
      have : j = s.l := no_tie (P := fun b => SD C b ∧ b ≠ H) (h1.symm.trans hev) h4
        (fun b hb hp => I.fl ▸ hpre b hb hp.1 hp.2) ⟨hsd, hH.ne⟩ htie
      simp [e, ← this]
  split_ifs with h1 h2 h3
  · exact ⟨rfl, by simp, fun _ hsd hb he => fresh _ rfl h1.1 hsd hb he⟩
  · exact ⟨I.fl, by simp, fun _ _ _ _ => rfl⟩
  · exact ⟨I.fh, by simp, fun _ _ _ _ => rfl⟩
  · refine ⟨rfl, by simp, fun _ hsd hb he => ?_⟩
    simp only [not_and_or, not_le, not_not] at h1 h2 h3
    rcases le_total (C.phi j) s.fl with hle | hle
    · exact fresh _ rfl hle hsd hb he
    · exfalso
      have hjz : C.c1 * j * C.gzed ≤ 0 := mul_nonpos_of_nonneg_of_nonpos (mul_nonneg hc h0) hg.le
      have hsd' : C.phi j ≤ C.fzed + C.c1 * j * C.gzed := hsd
      rcases h2 with h2 | h2 | h2
      · exact absurd hle (not_le.mpr h2)
      · rcases h3 with h3 | h3 <;> linarith
      · have hl : s.fl = C.fzed := by rw [I.fl, h2, hf]
        have e1 : C.phi j = s.fl := le_antisymm (by linarith) hle
        rcases h1 with h1 | h1
        · linarith
        · rcases h3 with h3 | h3 <;> linarith

theorem zoom_good {C : Cfg F V} {H : F} (hf : C.fzed = C.phi 0) (hc : 0 ≤ C.c1) (hg : C.gzed < 0) :
    ∀ (n : ℕ) (s : ZSt F V) (r : Res F V), ZInv C H s → zoom C n s = some r → Good C r := by
  intro n
  induction n with
  | zero =>
    intro s r I hr
    rw [zoom] at hr
    obtain ⟨j, hj, hr⟩ := Option.bind_eq_some_iff.mp hr
    obtain ⟨h0, hH⟩ := I.trial hj
    simp only [Option.some.injEq] at hr
    rw [← hr]
    exact zoomErr_good hf hc hg (I.body h0 hH) h0 hH (by simp [zoomBody_evals])
  | succ n ih =>
    intro s r I hr
    rw [zoom] at hr
    obtain ⟨j, hj, hr⟩ := Option.bind_eq_some_iff.mp hr
    obtain ⟨h0, hH⟩ := I.trial hj
    dsimp only at hr
    split_ifs at hr with hd
    · obtain ⟨h1, h2, h3⟩ := zoomBody_done hd
      simp only [h3, Option.getD_some, Option.some.injEq] at hr
      rw [← hr]
      exact ⟨rfl, fun _ => ⟨h1, h2, rfl⟩, by simp⟩
    · exact ih _ r (I.body h0 hH) hr

theorem zoom_start {C : Cfg F V} {n : ℕ} {alp0 alp1 f0 g0 : F} {ev : List F} {r : Res F V}
    (hf : C.fzed = C.phi 0) (hc : 0 ≤ C.c1) (hg : C.gzed < 0) (h0 : 0 ≤ alp0) (h01 : alp0 ≤ alp1)
    (hf0 : f0 = C.phi alp0) (hold : ∀ b ∈ ev, f0 ≤ C.phi b)
    (hr : zoom C n ⟨alp0, alp1, f0, C.phi alp1, g0, none, none, ev ++ [alp1]⟩ = some r) : Good C r := by
  rcases eq_or_lt_of_le h01 with rfl | hlt
  · have ht : trial C ⟨alp0, alp0, f0, C.phi alp0, g0, none, none, ev ++ [alp0]⟩ = none := by
      simp [trial, quadInterp]
    cases n <;> rw [zoom, ht] at hr <;> simp at hr
  · refine zoom_good (H := alp1) hf hc hg n _ r ⟨hlt, le_rfl, h0, h0.trans h01, hf0, rfl, ?_, by simp⟩ hr
    intro b hb _ hne
    rcases List.mem_append.mp hb with hb | hb
    · exact hold b hb
    · exact absurd (List.mem_singleton.mp hb) hne

/-- A result of the main loop: as for `_zoom`, or the mismatched answer at the limit, which never meets the
curvature test. -/
def Good' (C : Cfg F V) (r : Res F V) : Prop := Good C r ∨ (r.err = true ∧ w2 C r = false)

theorem mainExit_good {C : Cfg F V} {first : Bool} {alp0 alp1 f0 g0 : F} {ev : List F} {r : Res F V}
    (hf : C.fzed = C.phi 0) (hc : 0 ≤ C.c1) (hg : C.gzed < 0) (h0 : 0 ≤ alp0) (h01 : alp0 ≤ alp1)
    (hf0 : f0 = C.phi alp0) (hold : ∀ b ∈ ev, f0 ≤ C.phi b)
    (hr : mainExit C first (ev ++ [alp1]) alp0 f0 g0 alp1 = some (some r)) : Good C r := by
  unfold mainExit at hr
  dsimp only at hr
  split_ifs at hr with h1 h2 h3
  · exact zoom_start hf hc hg h0 h01 hf0 hold (Option.some.inj hr)
  · simp only [Option.some.injEq] at hr
    rw [← hr]
    push Not at h1
    exact ⟨rfl, fun _ => ⟨h1.1, h2, rfl⟩, by simp⟩
  · exact zoom_start hf hc hg h0 h01 hf0 hold (Option.some.inj hr)

theorem mainExit_none {C : Cfg F V} {first : Bool} {alp0 alp1 f0 g0 : F} {ev : List F}
    (hr : mainExit C first ev alp0 f0 g0 alp1 = none) :
    SD C alp1 ∧ (first = false → C.phi alp1 < f0) ∧ (C.dphi alp1).2 < C.gzed * C.c2 := by
  unfold mainExit at hr
  dsimp only at hr
  split_ifs at hr with h1 h2 h3
  push Not at h1 h2 h3
  refine ⟨h1.1, fun h => ?_, ?_⟩
  · by_contra hh
    exact (h1.2 (not_lt.mp hh)) h
  · rw [abs_of_neg h3] at h2; linarith

theorem mainLoop_good {C : Cfg F V} (hf : C.fzed = C.phi 0) (hc : 0 ≤ C.c1) (hg : C.gzed < 0) :
    ∀ (n : ℕ) (first : Bool) (ev : List F) (alp0 f0 g0 alp1 : F) (r : Res F V), 0 ≤ alp0 → alp0 ≤ alp1 →
      alp1 ≤ C.alpMax → f0 = C.phi alp0 → (∀ b ∈ ev, f0 ≤ C.phi b) → (first = true → ev = []) →
      mainLoop C n first ev alp0 f0 g0 alp1 = some r → Good' C r := by
  intro n
  induction n with
  | zero =>
    intro first ev alp0 f0 g0 alp1 r h0 h01 hm hf0 hold hfe hr
    rw [mainLoop] at hr
    cases hx : mainExit C first (ev ++ [alp1]) alp0 f0 g0 alp1 with
    | some z =>
      rw [hx, Option.getD_some] at hr
      exact .inl (mainExit_good hf hc hg h0 h01 hf0 hold (by rw [hx, hr]))
    | none =>
      rw [hx, Option.getD_none, Option.some.injEq] at hr
      obtain ⟨-, -, h3⟩ := mainExit_none hx
      rw [← hr]
      exact .inr ⟨rfl, by simpa [w2] using h3⟩
  | succ n ih =>
    intro first ev alp0 f0 g0 alp1 r h0 h01 hm hf0 hold hfe hr
    rw [mainLoop] at hr
    cases hx : mainExit C first (ev ++ [alp1]) alp0 f0 g0 alp1 with
    | some z =>
      rw [hx, Option.getD_some] at hr
      exact .inl (mainExit_good hf hc hg h0 h01 hf0 hold (by rw [hx, hr]))
    | none =>
      rw [hx, Option.getD_none] at hr
      obtain ⟨h1, h2, -⟩ := mainExit_none hx
      have h1' : 0 ≤ alp1 := h0.trans h01
      refine ih false (ev ++ [alp1]) alp1 (C.phi alp1) (C.dphi alp1).2 _ r h1' (le_min (by linarith) hm)
        (min_le_right _ _) rfl ?_ (by simp) hr
      intro b hb
      rcases List.mem_append.mp hb with hb | hb
      · cases first with
        | true => simp [hfe rfl] at hb
        | false => exact (h2 rfl).le.trans (hold b hb)
      · rw [List.mem_singleton.mp hb]

end LineSearch
end HQCA
