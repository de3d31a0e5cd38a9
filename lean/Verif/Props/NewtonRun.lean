import Verif.Model.NewtonRun
import Verif.Props.EulerMin
import Verif.Props.EulerRun3
import Verif.Props.Newton

/-!
# C163: a closed Newton run with the classical solver
-/

namespace HQCA
namespace Props
open ACSE ACSEEn EulerRun HFStore Ham Prepare Resid UCC
noncomputable section

/-! ### The scaled search direction -/

theorem foldl_addStr_unique (l J : OpD FStr ℂ) (h : ((J ++ l).map (·.1)).Nodup) : l.foldl OpD.addStr J = J ++ l := by
  induction l generalizing J with
  | nil => simp
  | cons t l ih =>
    have hk : OpD.hasKey J t.1 = false := by
      unfold OpD.hasKey
      rw [List.any_eq_false]
      intro u hu e
      simp only [decide_eq_true_eq] at e
      rw [List.map_append, List.nodup_append] at h
      exact h.2.2 u.1 (List.mem_map.mpr ⟨u, hu, rfl⟩) t.1 (by simp) e
    rw [List.foldl_cons, OpD.addStr, hk, if_neg (by simp), ih (J ++ [t]) (by simpa using h)]
    simp

theorem newton_scaled_eq (c : ℝ) (A : OpD FStr ℂ) (h : UniqueKeys A) : NewtonRun.scaled c A = OpD.clean (Euler.scaled ((-c : ℝ) : ℂ) A) := by
  unfold NewtonRun.scaled
  rw [foldl_addStr_unique _ [] (by
    have := h
    unfold UniqueKeys at this
    simpa [Function.comp_def] using this)]
  congr 1
  unfold Euler.scaled
  rw [List.nil_append]
  refine List.map_congr_left fun t _ => Prod.ext rfl ?_
  show t.2 * (c : ℂ) = t.2 * (-1 * ((-c : ℝ) : ℂ))
  push_cast
  ring

/-! ### One step -/

/-- Every ansatz the step can try is made of layers as in C115. -/
def TrialsOK (C : Newton.Cfg ℝ) (no : ℕ) (s : NewtonRun.Drv) : Prop :=
  ∀ c : ℝ, (∀ A ∈ Ansatz.add 1 s.psi (NewtonRun.scaled c s.A), LayerOK no A) ∧
    ∀ A ∈ Ansatz.add 1 s.psi (NewtonRun.scaled c (NewtonRun.scaled C.d s.A)), LayerOK no A

/-- The second difference of the energies of the three trial circuits is negative beyond rounding. -/
def NegCurv (C : Newton.Cfg ℝ) (o : Opt) (no na nb : ℕ) (h1 : Fin (2 * no) → Fin (2 * no) → ℂ)
    (V : Fin (2 * no) → Fin (2 * no) → Fin (2 * no) → Fin (2 * no) → ℂ) (enc : ℝ) (s : NewtonRun.Drv) : Prop :=
  ∃ e1 e2 : ℝ, energy no na nb o.col h1 V enc (Ansatz.add 1 s.psi (NewtonRun.scaled C.eps s.A)) = some e1 ∧
    energy no na nb o.col h1 V enc (Ansatz.add 1 s.psi (NewtonRun.scaled C.eps (NewtonRun.scaled C.d s.A))) = some e2 ∧
    (2 * (e2 - s.ek) - 2 * C.d * (e1 - s.ek)) / (C.d * C.eps * C.eps * (C.d - 1)) ≤ -(1 / 10 ^ 16)

theorem newton_pass_some (C : Newton.Cfg ℝ) (hts : 0 ≤ C.tsCrit) (E : ℝ → ℝ) (e0 g h del : ℝ) : ∃ t, Newton.pass C E e0 g h del = some t ∧
    t.object = e0 - E t.coeff := by
  unfold Newton.pass
  dsimp only
  split_ifs with q1 q2 q3 q4 q5
  · exact ⟨_, rfl, rfl⟩
  · exact ⟨_, rfl, rfl⟩
  · exact absurd (by rw [q3, abs_zero]; exact hts) q2
  · exact ⟨_, rfl, rfl⟩
  · exact ⟨_, rfl, rfl⟩
  · exact ⟨_, rfl, rfl⟩

theorem newton_loop2_some (C : Newton.Cfg ℝ) (hts : 0 ≤ C.tsCrit) (E : ℝ → Option ℝ) (hE : ∀ c, ∃ e, E c = some e) (e0 g h del : ℝ) :
    ∃ t, NewtonRun.loop2 C E e0 g h del = some t := by
  have hp : ∀ del, ∃ t, NewtonRun.pass C E e0 g h del = some t := by
    intro del
    obtain ⟨e, he⟩ := hE (Newton.coeffOf g h del)
    obtain ⟨t, ht, _⟩ := newton_pass_some C hts (fun _ => e) e0 g h del
    exact ⟨t, by unfold NewtonRun.pass; rw [he]; exact ht⟩
  obtain ⟨t, ht⟩ := hp del
  unfold NewtonRun.loop2
  rw [ht, Option.bind_some]
  split
  · exact ⟨_, rfl⟩
  · exact hp _

/-- The step raises exactly on negative curvature. -/
theorem newton_choose (C : Newton.Cfg ℝ) (hu : UsableSteps C) (htr : C.useTR = true) (hts : 0 ≤ C.tsCrit) (o : Opt) (hcol : ColouringOK o.col) (no na nb : ℕ)
    (hno : 0 < no) (ha : na ≤ no) (hb : nb ≤ no) (hne : na + nb ≠ 1) (h1 : Fin (2 * no) → Fin (2 * no) → ℂ)
    (V : Fin (2 * no) → Fin (2 * no) → Fin (2 * no) → Fin (2 * no) → ℂ) (hh : ∀ a b, h1 a b = h1 b a) (hV : ∀ a b c d, V a b c d = V c d a b) (enc : ℝ)
    (s : NewtonRun.Drv) (hs : TrialsOK C no s) :
    NewtonRun.choose C o no na nb h1 V enc s = none ↔ NegCurv C o no na nb h1 V enc s := by
  have hen : ∀ L : List (OpD FStr ℂ), (∀ A ∈ L, LayerOK no A) → ∃ e, energy no na nb o.col h1 V enc L = some e := by
    intro L hL
    obtain ⟨_, _, _, E, _, _, _, _, _, a3, _⟩ := C115_energy_partial no na nb hno ha hb hne o.col hcol h1 V hh hV enc L hL
    exact ⟨E, a3⟩
  obtain ⟨e1, he1⟩ := hen _ (hs C.eps).1
  obtain ⟨e2, he2⟩ := hen _ (hs C.eps).2
  have hloop := fun g h del => newton_loop2_some C hts (fun c => NewtonRun.trial o no na nb h1 V enc s.psi (NewtonRun.scaled c s.A)) (fun c => hen _ (hs c).1) s.ek g h del
  have hN : NegCurv C o no na nb h1 V enc s ↔ Newton.second C s.ek e1 e2 ≤ -(1 / 10 ^ 16) := by
    constructor
    · rintro ⟨x1, x2, q1, q2, q3⟩
      rw [he1] at q1
      rw [he2] at q2
      cases q1
      cases q2
      exact q3
    · exact fun h => ⟨e1, e2, he1, he2, h⟩
  rw [hN]
  unfold NewtonRun.choose NewtonRun.trial
  rw [he1, Option.bind_some, he2, Option.bind_some]
  unfold Newton.derivs
  rw [if_neg hu.ne2]
  dsimp only
  have hp : (0 : ℝ) < 1 / 10 ^ 16 := by positivity
  generalize Newton.second C s.ek e1 e2 = d2
  generalize Newton.first C s.ek e1 e2 = d1
  have ht : ¬ C.useTR = false := by rw [htr]; simp
  have key : ∀ g h : ℝ, (if h < 0 then none else
      NewtonRun.loop2 C (fun c => NewtonRun.trial o no na nb h1 V enc s.psi (NewtonRun.scaled c s.A)) s.ek g h s.del) = none ↔ h < 0 := by
    intro g h
    split
    · rename_i hlt; exact ⟨fun _ => hlt, fun _ => rfl⟩
    · rename_i hlt
      obtain ⟨t, ht⟩ := hloop g h s.del
      rw [ht]
      exact ⟨fun h => absurd h (by simp), fun h => absurd h hlt⟩
  split_ifs with q1 q2
  · rw [Option.bind_some]
    rw [abs_lt] at q1
    exact (key d1 _).trans ⟨fun h => absurd h (not_lt.mpr hp.le), fun h => absurd h (not_le.mpr q1.1)⟩
  · rw [Option.bind_some]
    refine (key _ d2).trans ⟨fun h => ?_, fun h : d2 ≤ -(1 / 10 ^ 16) => by linarith⟩
    rw [not_lt, abs_of_neg h] at q1
    linarith
  · rw [Option.bind_some]
    refine (key _ d2).trans ⟨fun h => ?_, fun h : d2 ≤ -(1 / 10 ^ 16) => by linarith⟩
    rw [not_lt, abs_of_neg h] at q1
    linarith

theorem newton_after_len (C : Newton.Cfg ℝ) (p : ℕ) (o : Opt) (del : ℝ) (no na nb : ℕ) (h1 : Fin (2 * no) → Fin (2 * no) → ℂ)
    (V : Fin (2 * no) → Fin (2 * no) → Fin (2 * no) → Fin (2 * no) → ℂ) (enc : ℝ) (n : ℕ) (s : NewtonRun.Drv)
    (h : NewtonRun.after C p o del no na nb h1 V enc n = some s) : s.psi.length ≤ n := by
  induction n generalizing s with
  | zero =>
    unfold NewtonRun.after NewtonRun.start at h
    obtain ⟨e, _, h⟩ := Option.bind_eq_some_iff.mp h
    obtain ⟨x, _, rfl⟩ := Option.map_eq_some_iff.mp h
    simp
  | succ n ih =>
    unfold NewtonRun.after at h
    obtain ⟨t, t1, t2⟩ := Option.bind_eq_some_iff.mp h
    obtain ⟨y, y1, rfl⟩ := Option.map_eq_some_iff.mp t2
    unfold NewtonRun.step at y1
    obtain ⟨c, _, y1⟩ := Option.bind_eq_some_iff.mp y1
    obtain ⟨e, _, e2⟩ := Option.bind_eq_some_iff.mp y1
    obtain ⟨z, _, rfl⟩ := Option.map_eq_some_iff.mp e2
    exact (ansatz_add_length _ _).trans (by have := ih t t1; omega)

/-- A step that does not meet negative curvature: the ansatz with the chosen coefficient, its energy. -/
theorem newton_step (C : Newton.Cfg ℝ) (p : ℕ) (o : Opt) (hcol : ColouringOK o.col) (hcolA : ColouringOK o.colA) (no na nb : ℕ)
    (hno : 0 < no) (ha : na ≤ no) (hb : nb ≤ no) (hne : na + nb ≠ 1) (hp : (p = 2 ∧ 0 < no ∧ na + nb < 3) ∨ (p = 3 ∧ 1 < no ∧ na + nb ≠ 2))
    (h1 : Fin (2 * no) → Fin (2 * no) → ℂ) (V : Fin (2 * no) → Fin (2 * no) → Fin (2 * no) → Fin (2 * no) → ℂ) (hh : ∀ a b, h1 a b = h1 b a)
    (hV : ∀ a b c d, V a b c d = V c d a b) (hx : ∀ a b c d, V a b c d = V b a d c) (enc : ℝ)
    (s : NewtonRun.Drv) (hs : TrialsOK C no s) (hd : s.psi.length + 1 < o.depth) (t : Newton.St ℝ) (ht : NewtonRun.choose C o no na nb h1 V enc s = some t) :
    ∃ x, NewtonRun.step C p o no na nb h1 V enc s = some x ∧ x.2.deep = false ∧ IsEnergy no na nb h1 V enc x.2.en ∧
      x.1.psi = Ansatz.add 1 s.psi (NewtonRun.scaled t.coeff s.A) ∧ x.1.ek = x.2.en := by
  have hL := (hs t.coeff).1
  obtain ⟨_, _, Ψ, E, _, _, _, a1, a2, a3, a4⟩ := C115_energy_partial no na nb hno ha hb hne o.col hcol h1 V hh hV enc _ hL
  obtain ⟨y, y1⟩ := getA3_ok p o hcolA no na nb ha hb hne hp h1 V hh hV hx _ hL
  refine ⟨(⟨_, y.1, t.del, E⟩, ⟨E, y.2, t.taylor, t.object, decide ((Ansatz.add 1 s.psi (NewtonRun.scaled t.coeff s.A)).length = o.depth)⟩), ?_, ?_,
    ⟨Ψ, a1, a2, a4⟩, rfl, rfl⟩
  · unfold NewtonRun.step
    rw [ht, Option.bind_some]
    simp only
    rw [a3, Option.bind_some, y1]
    rfl
  · have := ansatz_add_length s.psi (NewtonRun.scaled t.coeff s.A)
    exact decide_eq_false (by omega)

/-! ### The run -/

theorem newton_loop_obs (P : Par ℝ) (C : Newton.Cfg ℝ) (p : ℕ) (o : Opt) (hcol : ColouringOK o.col) (hcolA : ColouringOK o.colA) (del : ℝ) (no na nb : ℕ)
    (hno : 0 < no) (ha : na ≤ no) (hb : nb ≤ no) (hne : na + nb ≠ 1) (hp : (p = 2 ∧ 0 < no ∧ na + nb < 3) ∨ (p = 3 ∧ 1 < no ∧ na + nb ≠ 2))
    (h1 : Fin (2 * no) → Fin (2 * no) → ℂ) (V : Fin (2 * no) → Fin (2 * no) → Fin (2 * no) → Fin (2 * no) → ℂ) (hh : ∀ a b, h1 a b = h1 b a)
    (hV : ∀ a b c d, V a b c d = V c d a b) (hx : ∀ a b c d, V a b c d = V b a d c) (enc : ℝ) (M : ℕ) (hdep : M < o.depth)
    (hi : ∀ n < M, ∀ s, NewtonRun.after C p o del no na nb h1 V enc n = some s → TrialsOK C no s) :
    ∀ (n m : ℕ) (s : NewtonRun.Drv), m + n = M → NewtonRun.after C p o del no na nb h1 V enc m = some s →
      (∀ d r, NewtonRun.loop P C p o no na nb h1 V enc n d s = some r →
        ∃ os : List (Obs ℝ), (∀ ob ∈ os, ob.deep = false ∧ IsEnergy no na nb h1 V enc ob.en) ∧ ACSE.run P os d = some r) ∧
      ((∀ k < M, ∀ s, NewtonRun.after C p o del no na nb h1 V enc k = some s → NewtonRun.choose C o no na nb h1 V enc s ≠ none) →
        ∃ os : List (Obs ℝ), os.length = n ∧ (∀ ob ∈ os, ob.deep = false ∧ IsEnergy no na nb h1 V enc ob.en) ∧
          ∀ d, NewtonRun.loop P C p o no na nb h1 V enc n d s = ACSE.run P os d) := by
  intro n
  induction n with
  | zero => exact fun m s _ _ => ⟨fun d r h => ⟨[], by simp, h⟩, fun _ => ⟨[], rfl, by simp, fun d => rfl⟩⟩
  | succ n ih =>
    intro m s hm has
    have hs := hi m (by omega) s has
    have hlen := newton_after_len C p o del no na nb h1 V enc m s has
    have nxt : ∀ x, NewtonRun.step C p o no na nb h1 V enc s = some x → NewtonRun.after C p o del no na nb h1 V enc (m + 1) = some x.1 := by
      intro x hx
      rw [NewtonRun.after, has, Option.bind_some, hx]
      rfl
    constructor
    · intro d r h
      unfold NewtonRun.loop at h
      split at h
      · exact ⟨[], by simp, h⟩
      · rename_i hd
        obtain ⟨x, x1, h⟩ := Option.bind_eq_some_iff.mp h
        obtain ⟨d', c1, h⟩ := Option.bind_eq_some_iff.mp h
        have hch : ∃ t, NewtonRun.choose C o no na nb h1 V enc s = some t := by
          unfold NewtonRun.step at x1
          obtain ⟨t, ht, _⟩ := Option.bind_eq_some_iff.mp x1
          exact ⟨t, ht⟩
        obtain ⟨t, ht⟩ := hch
        obtain ⟨x', q1, q2, q3, _⟩ := newton_step C p o hcol hcolA no na nb hno ha hb hne hp h1 V hh hV hx enc s hs (by omega) t ht
        obtain rfl : x' = x := Option.some.inj (q1.symm.trans x1)
        obtain ⟨os, o1, o2⟩ := (ih (m + 1) x'.1 (by omega) (nxt x' q1)).1 d' r h
        refine ⟨x'.2 :: os, ?_, ?_⟩
        · intro ob hob
          rcases List.mem_cons.mp hob with rfl | hob
          · exact ⟨q2, q3⟩
          · exact o1 ob hob
        · rw [ACSE.run, if_neg hd, c1, Option.bind_some]
          exact o2
    · intro hns
      obtain ⟨t, ht⟩ := Option.ne_none_iff_exists'.mp (hns m (by omega) s has)
      obtain ⟨x, q1, q2, q3, _⟩ := newton_step C p o hcol hcolA no na nb hno ha hb hne hp h1 V hh hV hx enc s hs (by omega) t ht
      obtain ⟨os, o1, o2, o3⟩ := (ih (m + 1) x.1 (by omega) (nxt x q1)).2 hns
      refine ⟨x.2 :: os, by rw [List.length_cons, o1], ?_, fun d => ?_⟩
      · intro ob hob
        rcases List.mem_cons.mp hob with rfl | hob
        · exact ⟨q2, q3⟩
        · exact o2 ob hob
      · unfold NewtonRun.loop ACSE.run
        split
        · rfl
        · rw [q1, Option.bind_some]
          congr 1
          funext d'
          exact o3 d'

/-- **C163, partial.** A closed Newton run with the trust region and the classical solver, in which every ansatz tried is made of layers as in C115.  If the run returns, it
took at most `max_iter` iterations, and the energy it reports is not above the Hartree–Fock energy, is within the accuracy of one evaluation the energy of a normalised
state with the right numbers of electrons, and not below the lowest energy of these states by more than that.  It returns, with `done` set, unless some iteration finds
a negative second difference (then the step raises, C67).  Missing: layers whose Trotterised circuit does not conserve the numbers of electrons, one electron, the orders
that raise (C159), and reaching the maximal depth. -/
theorem C163_run_partial (P : Par ℝ) (hP : 0 < P.maxIter) (hc : P.conv ≠ .other) (C : Newton.Cfg ℝ) (hu : UsableSteps C) (htr : C.useTR = true) (hts : 0 ≤ C.tsCrit)
    (p : ℕ) (o : Opt) (hcol : ColouringOK o.col) (hcolA : ColouringOK o.colA) (del : ℝ)
    (hdep : P.maxIter < o.depth) (no na nb : ℕ) (hno : 0 < no) (ha : na ≤ no) (hb : nb ≤ no) (hne : na + nb ≠ 1) (hsz : SpinOK na nb)
    (hp : (p = 2 ∧ 0 < no ∧ na + nb < 3) ∨ (p = 3 ∧ 1 < no ∧ na + nb ≠ 2))
    (h1 : Fin (2 * no) → Fin (2 * no) → ℂ) (V : Fin (2 * no) → Fin (2 * no) → Fin (2 * no) → Fin (2 * no) → ℂ) (hh : ∀ a b, h1 a b = h1 b a)
    (hV : ∀ a b c d, V a b c d = V c d a b) (hx : ∀ a b c d, V a b c d = V b a d c) (enc : ℝ)
    (hi : ∀ n < P.maxIter, ∀ s, NewtonRun.after C p o del no na nb h1 V enc n = some s → TrialsOK C no s) :
    (∀ s, NewtonRun.run P C p o del no na nb h1 V enc P.maxIter = some s → s.iter ≤ P.maxIter ∧
      s.best ≤ (pair (det (hfCfg no na nb)) (secondQ h1 V (det (hfCfg no na nb) : Cfg →₀ ℂ))).re + enc ∧
      IsEnergy no na nb h1 V enc s.best ∧
      ∀ E0 : ℝ, (∀ φ : Cfg →₀ ℂ, pair φ φ = 1 → (∀ b, φ b ≠ 0 → InSec no (2 * no) na (na + nb) b) → E0 ≤ (pair φ (secondQ h1 V φ)).re) →
        E0 + enc - tolE no (na + nb) h1 V ≤ s.best) ∧
    ((∀ n < P.maxIter, ∀ s, NewtonRun.after C p o del no na nb h1 V enc n = some s → ¬ NegCurv C o no na nb h1 V enc s) →
      ∃ s, NewtonRun.run P C p o del no na nb h1 V enc P.maxIter = some s ∧ s.done = true) := by
  obtain ⟨x, x1⟩ := getA3_ok p o hcolA no na nb ha hb hne hp h1 V hh hV hx [] (by simp)
  have hE := C113_acse_partial no na nb ha hb hne hsz h1 V hh hV enc
  have hst : NewtonRun.start p o del no na nb h1 V enc =
      some ⟨[], x.1, del, (pair (det (hfCfg no na nb)) (secondQ h1 V (det (hfCfg no na nb) : Cfg →₀ ℂ))).re + enc⟩ := by
    unfold NewtonRun.start
    rw [hE, Option.bind_some, x1]
    rfl
  obtain ⟨l1, l2⟩ := newton_loop_obs P C p o hcol hcolA del no na nb hno ha hb hne hp h1 V hh hV hx enc P.maxIter hdep hi P.maxIter 0 _ (by omega) hst
  constructor
  · intro s hs
    unfold NewtonRun.run at hs
    rw [hst, Option.bind_some] at hs
    obtain ⟨os, o1, o2⟩ := l1 _ s hs
    obtain ⟨s', e1, e2, _, e4⟩ := run_of_obs P hP hc no na nb ha hb h1 V enc os o1
    rw [e1] at o2
    cases o2
    exact ⟨e2, e4⟩
  · intro hn
    obtain ⟨os, o1, o2, o3⟩ := l2 fun k hk s hs h =>
      hn k hk s hs ((newton_choose C hu htr hts o hcol no na nb hno ha hb hne h1 V hh hV enc s (hi k hk s hs)).mp h)
    obtain ⟨s, e1, _, e3, _⟩ := run_of_obs P hP hc no na nb ha hb h1 V enc os o2
    refine ⟨s, ?_, e3 (by omega)⟩
    unfold NewtonRun.run
    rw [hst, Option.bind_some, o3]
    exact e1

/-- Negative curvature at the first iteration ends the run with an error. -/
theorem C163_negative (P : Par ℝ) (C : Newton.Cfg ℝ) (hu : UsableSteps C) (p : ℕ) (o : Opt) (del : ℝ) (no na nb : ℕ) (h1 : Fin (2 * no) → Fin (2 * no) → ℂ)
    (V : Fin (2 * no) → Fin (2 * no) → Fin (2 * no) → Fin (2 * no) → ℂ) (enc : ℝ) (n : ℕ) (s : NewtonRun.Drv)
    (hs : NewtonRun.after C p o del no na nb h1 V enc 0 = some s) (hN : NegCurv C o no na nb h1 V enc s) :
    NewtonRun.run P C p o del no na nb h1 V enc (n + 1) = none := by
  have hs' : NewtonRun.start p o del no na nb h1 V enc = some s := hs
  obtain ⟨e1, e2, q1, q2, q3⟩ := hN
  have hp : (0 : ℝ) < 1 / 10 ^ 16 := by positivity
  have hd : Newton.second C s.ek e1 e2 ≤ -(1 / 10 ^ 16) := q3
  have hch : NewtonRun.choose C o no na nb h1 V enc s = none := by
    unfold NewtonRun.choose NewtonRun.trial
    rw [q1, Option.bind_some, q2, Option.bind_some]
    unfold Newton.derivs
    rw [if_neg hu.ne2]
    dsimp only
    generalize Newton.second C s.ek e1 e2 = d2 at hd
    have hneg : d2 < 0 := by linarith
    rw [if_neg (by rw [abs_of_neg hneg]; linarith)]
    split_ifs <;> simp [hneg]
  unfold NewtonRun.run
  rw [hs', Option.bind_some]
  unfold NewtonRun.loop
  rw [if_neg (by simp [ACSE.build])]
  unfold NewtonRun.step
  rw [hch]
  rfl

/-! ### What one iteration does -/

theorem newton_pass_obs (C : Newton.Cfg ℝ) (hgd : 0 < C.gd) (hgd1 : C.gd ≤ 1) (hgi : 0 < C.gi) (E : ℝ → Option ℝ) (e0 g h del : ℝ) (hd : 0 < del) (t : Newton.St ℝ)
    (ht : NewtonRun.pass C E e0 g h del = some t) :
    ∃ ef, E t.coeff = some ef ∧ t.object = e0 - ef ∧ |t.coeff| ≤ del ∧ 0 < t.del ∧ t.del ≤ max 1 C.gi * del ∧ (t.trust = false → t.del ≤ del) := by
  unfold NewtonRun.pass at ht
  obtain ⟨ef, e1, ht⟩ := Option.bind_eq_some_iff.mp ht
  have hc : |Newton.coeffOf g h del| ≤ del := by
    unfold Newton.coeffOf
    split_ifs with h1 h2
    · rw [neg_div, abs_neg]; exact h1.le
    · rw [mul_neg_one, abs_neg]; exact (abs_of_pos hd).le
    · exact (abs_of_pos hd).le
  have m1 : del ≤ max 1 C.gi * del := le_mul_of_one_le_left hd.le (le_max_left _ _)
  have m2 : del * C.gi ≤ max 1 C.gi * del := by rw [mul_comm]; exact mul_le_mul_of_nonneg_right (le_max_right _ _) hd.le
  have m3 : del * C.gd ≤ del := mul_le_of_le_one_right hd.le hgd1
  unfold Newton.pass at ht
  dsimp only at ht
  split_ifs at ht with q1 q2 q3 q4 q5
  · cases ht; exact ⟨ef, e1, rfl, hc, hd, m1, fun h => absurd h (by simp)⟩
  · cases ht; exact ⟨ef, e1, rfl, hc, hd, m1, fun h => absurd h (by simp)⟩
  · cases ht; exact ⟨ef, e1, rfl, hc, mul_pos hd hgi, m2, fun h => absurd h (by simp)⟩
  · cases ht; exact ⟨ef, e1, rfl, hc, hd, m1, fun h => absurd h (by simp)⟩
  · cases ht; exact ⟨ef, e1, rfl, hc, mul_pos hd hgd, m3.trans m1, fun _ => m3⟩

/-- **C163, one iteration.** An iteration that returns appends the search direction with the coefficient chosen (C163_choice), inside the trust region; the energy it reports
and the next direction are those of the new ansatz; the quantity tested by the trust-region convergence criterion is the decrease of the measured energy over the iteration; the radius stays positive and grows by at
most the factor `tr_gamma_inc`. -/
theorem C163_step (C : Newton.Cfg ℝ) (hgd : 0 < C.gd) (hgd1 : C.gd ≤ 1) (hgi : 0 < C.gi) (p : ℕ) (o : Opt) (no na nb : ℕ) (h1 : Fin (2 * no) → Fin (2 * no) → ℂ)
    (V : Fin (2 * no) → Fin (2 * no) → Fin (2 * no) → Fin (2 * no) → ℂ) (enc : ℝ) (s : NewtonRun.Drv) (hd : 0 < s.del) (x : NewtonRun.Drv × Obs ℝ)
    (hx : NewtonRun.step C p o no na nb h1 V enc s = some x) :
    ∃ t, NewtonRun.choose C o no na nb h1 V enc s = some t ∧ |t.coeff| ≤ s.del ∧ x.1.psi = Ansatz.add 1 s.psi (NewtonRun.scaled t.coeff s.A) ∧
      energy no na nb o.col h1 V enc x.1.psi = some x.2.en ∧ x.1.ek = x.2.en ∧ EulerRun3.getA p o no na nb h1 V x.1.psi = some (x.1.A, x.2.norm) ∧
      x.2.object = s.ek - x.2.en ∧ x.2.taylor = t.taylor ∧ x.1.del = t.del ∧ 0 < x.1.del ∧ x.1.del ≤ max 1 C.gi * s.del := by
  unfold NewtonRun.step at hx
  obtain ⟨t, ht, hx⟩ := Option.bind_eq_some_iff.mp hx
  have ht0 := ht
  simp only at hx
  obtain ⟨e, he, hx⟩ := Option.bind_eq_some_iff.mp hx
  obtain ⟨y, hy, rfl⟩ := Option.map_eq_some_iff.mp hx
  unfold NewtonRun.choose at ht
  obtain ⟨e1, _, ht⟩ := Option.bind_eq_some_iff.mp ht
  obtain ⟨e2, _, ht⟩ := Option.bind_eq_some_iff.mp ht
  obtain ⟨gh, _, ht⟩ := Option.bind_eq_some_iff.mp ht
  split_ifs at ht
  unfold NewtonRun.loop2 at ht
  obtain ⟨u, hu, ht⟩ := Option.bind_eq_some_iff.mp ht
  obtain ⟨ef, a1, a2, a3, a4, a5, a6⟩ := newton_pass_obs C hgd hgd1 hgi _ _ _ _ _ hd u hu
  have fin : ∀ t : Newton.St ℝ, (∃ ef, NewtonRun.trial o no na nb h1 V enc s.psi (NewtonRun.scaled t.coeff s.A) = some ef ∧ t.object = s.ek - ef) →
      energy no na nb o.col h1 V enc (Ansatz.add 1 s.psi (NewtonRun.scaled t.coeff s.A)) = some e → t.object = s.ek - e := by
    rintro t ⟨ef, q1, q2⟩ q3
    unfold NewtonRun.trial at q1
    rw [q3] at q1
    rw [q2, Option.some.inj q1]
  split at ht
  · obtain rfl := Option.some.inj ht
    exact ⟨u, ht0, a3, rfl, he, rfl, hy, fin u ⟨ef, a1, a2⟩ he, rfl, rfl, a4, a5⟩
  · rename_i hf
    have hle := a6 (by simpa using hf)
    obtain ⟨ef', b1, b2, b3, b4, b5, _⟩ := newton_pass_obs C hgd hgd1 hgi _ _ _ _ _ a4 t ht
    exact ⟨t, ht0, b3.trans hle, rfl, he, rfl, hy, fin t ⟨ef', b1, b2⟩ he, rfl, rfl, b4,
      b5.trans (mul_le_mul_of_nonneg_left hle (zero_le_one.trans (le_max_left _ _)))⟩

/-- When the energies of the trial circuits are the values of a function of the coefficient, the choice is the Newton step of C42 and C67 on that function. -/
theorem C163_choice (C : Newton.Cfg ℝ) (hn : C.noisy = false) (o : Opt) (no na nb : ℕ) (h1 : Fin (2 * no) → Fin (2 * no) → ℂ)
    (V : Fin (2 * no) → Fin (2 * no) → Fin (2 * no) → Fin (2 * no) → ℂ) (enc : ℝ) (s : NewtonRun.Drv) (E : ℝ → ℝ)
    (hE : ∀ c, energy no na nb o.col h1 V enc (Ansatz.add 1 s.psi (NewtonRun.scaled c s.A)) = some (E c))
    (hd : energy no na nb o.col h1 V enc (Ansatz.add 1 s.psi (NewtonRun.scaled C.eps (NewtonRun.scaled C.d s.A))) = some (E (C.d * C.eps))) :
    (NewtonRun.choose C o no na nb h1 V enc s).map Newton.Out.accept = Newton.step C E s.ek s.del := by
  have hf : (fun c => NewtonRun.trial o no na nb h1 V enc s.psi (NewtonRun.scaled c s.A)) = fun c => some (E c) := funext hE
  unfold NewtonRun.choose
  rw [hf]
  unfold NewtonRun.trial
  rw [hE, Option.bind_some, hd, Option.bind_some]
  unfold Newton.step
  cases Newton.derivs C s.ek (E C.eps) (E (C.d * C.eps)) with
  | none => rfl
  | some gh =>
    rw [Option.bind_some, Option.bind_some, hn]
    simp only [Bool.false_eq_true, if_false]
    have hl : NewtonRun.loop2 C (fun c => some (E c)) s.ek gh.1 gh.2 s.del = Newton.loop C E s.ek gh.1 gh.2 s.del := by
      unfold NewtonRun.loop2 Newton.loop
      rw [hn]
      simp only [Bool.or_false]
      rfl
    rw [hl]
    split_ifs <;> rfl

/-- With these coefficients the nested product of the second trial is the product with `d·eps`: no term is dropped on the way. -/
theorem C163_nested (c d : ℝ) (A : OpD FStr ℂ) (hA : UniqueKeys A) (h : ∀ t ∈ A, small (t.2 * (d : ℂ)) = false) :
    NewtonRun.scaled c (NewtonRun.scaled d A) = NewtonRun.scaled (d * c) A := by
  have hk : ∀ z : ℂ, UniqueKeys (A.map fun t => (t.1, t.2 * z)) := by
    intro z
    unfold UniqueKeys at *
    simpa [Function.comp_def] using hA
  have e1 : NewtonRun.scaled d A = A.map fun t => (t.1, t.2 * (d : ℂ)) := by
    unfold NewtonRun.scaled
    rw [foldl_addStr_unique _ [] (by rw [List.nil_append]; exact hk _), List.nil_append]
    unfold OpD.clean
    rw [List.filter_eq_self]
    intro u hu
    obtain ⟨t, ht, rfl⟩ := List.mem_map.mp hu
    simp [h t ht]
  rw [e1]
  unfold NewtonRun.scaled
  rw [List.map_map]
  congr 2
  refine List.map_congr_left fun t _ => Prod.ext rfl ?_
  show t.2 * (d : ℂ) * (c : ℂ) = t.2 * ((d * c : ℝ) : ℂ)
  push_cast
  ring

/-- A single excitation with coefficient 1/2 and the default `newton_step`. -/
example : NewtonRun.scaled (-1) (NewtonRun.scaled 2 [([.cr, .an], 1 / 2)]) = NewtonRun.scaled (2 * -1) [([.cr, .an], 1 / 2)] :=
  C163_nested (-1) 2 [([.cr, .an], 1 / 2)] (by simp [UniqueKeys]) fun t ht => by
    rw [List.mem_singleton] at ht
    subst ht
    rw [← Bool.not_eq_true, small_complex, not_le]
    norm_num

/-! ### Two spatial orbitals -/

/-- The driver of a Newton run on two spatial orbitals. -/
structure NewtonMin (s : NewtonRun.Drv) : Prop where
  psiG : ∀ A ∈ s.psi, GoodOp 2 A
  psiM : ∀ A ∈ s.psi, MinOp 2 A
  AG : GoodOp 2 s.A
  AM : MinOp 2 s.A

theorem NewtonMin.trials {s : NewtonRun.Drv} (h : NewtonMin s) (C : Newton.Cfg ℝ) : TrialsOK C 2 s := by
  have hsc : ∀ (c : ℝ) (A : OpD FStr ℂ), GoodOp 2 A → MinOp 2 A → GoodOp 2 (NewtonRun.scaled c A) ∧ MinOp 2 (NewtonRun.scaled c A) := by
    intro c A g m
    rw [newton_scaled_eq c A m.uniq]
    exact ⟨(g.scaled _).clean, (m.scaled _).clean⟩
  have hok : ∀ O, GoodOp 2 O → MinOp 2 O → ∀ A ∈ Ansatz.add 1 s.psi O, LayerOK 2 A := by
    intro O g m A hA
    have gA := add_good h.psiG g A hA
    have mA := add_min h.psiM m A hA
    exact gA.ok (imag_of_few gA mA.anti mA.uniq mA.few)
  intro c
  obtain ⟨d1, d2⟩ := hsc C.d s.A h.AG h.AM
  exact ⟨hok _ (hsc c _ h.AG h.AM).1 (hsc c _ h.AG h.AM).2, hok _ (hsc c _ d1 d2).1 (hsc c _ d1 d2).2⟩

theorem getA3_two (o : Opt) (no na nb : ℕ) (hn : na + nb < 3) (h1 : Fin (2 * no) → Fin (2 * no) → ℂ)
    (V : Fin (2 * no) → Fin (2 * no) → Fin (2 * no) → Fin (2 * no) → ℂ) : EulerRun3.getA 2 o no na nb h1 V = EulerRun.getA o no na nb h1 V := by
  funext L
  unfold EulerRun3.getA ClassResid.solve ClassResid.tensor EulerRun.getA
  rw [if_pos ⟨hn, rfl⟩, if_pos hn]
  cases ACSEEn.state no na nb L with
  | none => rfl
  | some prep =>
    simp only [Option.bind_some, Option.map_bind, Option.bind_map]
    rfl

theorem newton_after_min (C : Newton.Cfg ℝ) (o : Opt) (hcolA : ColouringOK o.colA) (del : ℝ) (h1 : Fin (2 * 2) → Fin (2 * 2) → ℂ)
    (V : Fin (2 * 2) → Fin (2 * 2) → Fin (2 * 2) → Fin (2 * 2) → ℂ) (hs : SpinInts 2 h1 V) (hS : 4 * tolE 2 2 h1 V < o.smin) (enc : ℝ) (n : ℕ) :
    ∀ s, NewtonRun.after C 2 o del 2 1 1 h1 V enc n = some s → NewtonMin s := by
  have hA : ∀ L : List (OpD FStr ℂ), (∀ A ∈ L, LayerOK 2 A) → ∀ x, EulerRun3.getA 2 o 2 1 1 h1 V L = some x → GoodOp 2 x.1 ∧ MinOp 2 x.1 := by
    intro L hL x hx
    rw [getA3_two o 2 1 1 (by norm_num)] at hx
    obtain ⟨y, y1, y2⟩ := getA_good 2 (by norm_num) o hcolA h1 V hs hS L hL
    rw [hx] at y1
    cases y1
    exact ⟨y2, getA_min 2 (by norm_num) o hcolA h1 V hs hS L hL x hx⟩
  induction n with
  | zero =>
    intro s h
    unfold NewtonRun.after NewtonRun.start at h
    obtain ⟨e, _, h⟩ := Option.bind_eq_some_iff.mp h
    obtain ⟨x, x1, rfl⟩ := Option.map_eq_some_iff.mp h
    obtain ⟨g, m⟩ := hA [] (by simp) x x1
    exact ⟨by simp, by simp, g, m⟩
  | succ n ih =>
    intro s h
    unfold NewtonRun.after at h
    obtain ⟨t, t1, t2⟩ := Option.bind_eq_some_iff.mp h
    obtain ⟨y, y1, rfl⟩ := Option.map_eq_some_iff.mp t2
    unfold NewtonRun.step at y1
    obtain ⟨c, _, y1⟩ := Option.bind_eq_some_iff.mp y1
    obtain ⟨e, _, e2⟩ := Option.bind_eq_some_iff.mp y1
    obtain ⟨z, z1, rfl⟩ := Option.map_eq_some_iff.mp e2
    have ht := ih t t1
    obtain ⟨g, m⟩ := hA _ (ht.trials C c.coeff).1 z z1
    have sg : GoodOp 2 (NewtonRun.scaled c.coeff t.A) := by rw [newton_scaled_eq _ _ ht.AM.uniq]; exact (ht.AG.scaled _).clean
    have sm : MinOp 2 (NewtonRun.scaled c.coeff t.A) := by rw [newton_scaled_eq _ _ ht.AM.uniq]; exact (ht.AM.scaled _).clean
    exact ⟨add_good ht.psiG sg, add_min ht.psiM sm, g, m⟩

/-- **C163, two spatial orbitals, partial.** For two electrons in two spatial orbitals (a minimal-basis hydrogen molecule) `C163_run_partial` holds without any hypothesis on
the layers.  Missing: what is missing from `C163_run_partial` other than that, and more than two orbitals. -/
theorem C163_minimal_partial (P : Par ℝ) (hP : 0 < P.maxIter) (hc : P.conv ≠ .other) (C : Newton.Cfg ℝ) (hu : UsableSteps C) (htr : C.useTR = true)
    (hts : 0 ≤ C.tsCrit) (o : Opt) (hcol : ColouringOK o.col) (hcolA : ColouringOK o.colA) (del : ℝ) (hdep : P.maxIter < o.depth)
    (h1 : Fin (2 * 2) → Fin (2 * 2) → ℂ) (V : Fin (2 * 2) → Fin (2 * 2) → Fin (2 * 2) → Fin (2 * 2) → ℂ) (hs : SpinInts 2 h1 V) (hh : ∀ a b, h1 a b = h1 b a)
    (hV : ∀ a b c d, V a b c d = V c d a b) (hx : ∀ a b c d, V a b c d = V b a d c) (hS : 4 * tolE 2 2 h1 V < o.smin) (enc : ℝ) :
    (∀ s, NewtonRun.run P C 2 o del 2 1 1 h1 V enc P.maxIter = some s → s.iter ≤ P.maxIter ∧
      s.best ≤ (pair (det (hfCfg 2 1 1)) (secondQ h1 V (det (hfCfg 2 1 1) : Cfg →₀ ℂ))).re + enc ∧
      IsEnergy 2 1 1 h1 V enc s.best ∧
      ∀ E0 : ℝ, (∀ φ : Cfg →₀ ℂ, pair φ φ = 1 → (∀ b, φ b ≠ 0 → InSec 2 (2 * 2) 1 2 b) → E0 ≤ (pair φ (secondQ h1 V φ)).re) →
        E0 + enc - tolE 2 2 h1 V ≤ s.best) ∧
    ((∀ n < P.maxIter, ∀ s, NewtonRun.after C 2 o del 2 1 1 h1 V enc n = some s → ¬ NegCurv C o 2 1 1 h1 V enc s) →
      ∃ s, NewtonRun.run P C 2 o del 2 1 1 h1 V enc P.maxIter = some s ∧ s.done = true) :=
  C163_run_partial P hP hc C hu htr hts 2 o hcol hcolA del hdep 2 1 1 (by norm_num) (by norm_num) (by norm_num) (by norm_num) (by unfold SpinOK; simp)
    (Or.inl ⟨rfl, by norm_num, by norm_num⟩) h1 V hh hV hx enc fun n _ s h => (newton_after_min C o hcolA del h1 V hs hS enc n s h).trials C

/-! ### A stationary reference -/

theorem add_empty (L : List (OpD FStr ℂ)) (h : ∀ A ∈ L, A = []) : ∀ A ∈ Ansatz.add 1 L [], A = [] :=
  step_empty (0 : ℂ) ⟨L, []⟩ rfl h

theorem energy_empty (no na nb : ℕ) (col : List PStr → ℕ → ℕ) (h1 : Fin (2 * no) → Fin (2 * no) → ℂ)
    (V : Fin (2 * no) → Fin (2 * no) → Fin (2 * no) → Fin (2 * no) → ℂ) (enc : ℝ) (L : List (OpD FStr ℂ)) (h : ∀ A ∈ L, A = []) :
    energy no na nb col h1 V enc L = energy no na nb col h1 V enc [] := by
  unfold energy ACSEEn.state
  rw [strings_empty L h, strings_empty [] (by simp)]

/-- **C163, partial.** If the Hartree–Fock determinant is an eigenstate and the threshold is above the accuracy, the Newton run never moves, and it returns when the sign of
`newton_step` is opposite to that of the difference between the measured and the stored energy of the reference (with the other sign the rounding of that difference may
be taken for negative curvature).  (Limits as in `C163_run_partial`.) -/
theorem C163_stationary_partial (P : Par ℝ) (hP : 0 < P.maxIter) (hc : P.conv ≠ .other) (C : Newton.Cfg ℝ) (hu : UsableSteps C) (htr : C.useTR = true)
    (hts : 0 ≤ C.tsCrit) (p : ℕ) (o : Opt) (hcol : ColouringOK o.col) (hcolA : ColouringOK o.colA) (del : ℝ)
    (hdep : P.maxIter < o.depth) (no na nb : ℕ) (hno : 0 < no) (ha : na ≤ no) (hb : nb ≤ no) (hne : na + nb ≠ 1) (hsz : SpinOK na nb)
    (hp : (p = 2 ∧ 0 < no ∧ na + nb < 3) ∨ (p = 3 ∧ 1 < no ∧ na + nb ≠ 2))
    (h1 : Fin (2 * no) → Fin (2 * no) → ℂ) (V : Fin (2 * no) → Fin (2 * no) → Fin (2 * no) → Fin (2 * no) → ℂ) (hh : ∀ a b, h1 a b = h1 b a)
    (hV : ∀ a b c d, V a b c d = V c d a b) (hx : ∀ a b c d, V a b c d = V b a d c) (r1 : ∀ a b, (starRingEnd ℂ) (h1 a b) = h1 a b)
    (r2 : ∀ a b c d, (starRingEnd ℂ) (V a b c d) = V a b c d) (hS : (8 * no + 12) * tolE no (na + nb) h1 V < o.smin)
    (E : ℝ) (hE : secondQ h1 V (ket (hfCfg no na nb)) = (E : ℂ) • ket (hfCfg no na nb)) (enc : ℝ)
    (hd : ∀ e, energy no na nb o.col h1 V enc [] = some e →
      C.d * (e - ((pair (det (hfCfg no na nb)) (secondQ h1 V (det (hfCfg no na nb) : Cfg →₀ ℂ))).re + enc)) ≤ 0) :
    (∀ n s, NewtonRun.after C p o del no na nb h1 V enc n = some s → s.A = [] ∧ ∀ A ∈ s.psi, A = []) ∧
    ∃ s, NewtonRun.run P C p o del no na nb h1 V enc P.maxIter = some s ∧ s.done = true := by
  have key : ∀ L : List (OpD FStr ℂ), (∀ A ∈ L, A = []) → ∀ x, EulerRun3.getA p o no na nb h1 V L = some x → x.1 = [] := by
    intro L hL x hxx
    obtain ⟨y, hy⟩ := C159_stationary_partial o.smin p false no na nb ha hb hne hp o.colA hcolA h1 V hh hV hx r1 r2 L (fun A hA => by rw [hL A hA]; exact empty_ok no) hS
      (fun psi Us hpsi hU => by
        rw [strings_empty L hL] at hpsi
        obtain rfl := Option.some.inj hpsi
        cases hU
        exact ⟨E, hE⟩)
    unfold EulerRun3.getA at hxx
    rw [hy] at hxx
    obtain rfl := Option.some.inj hxx
    rfl
  have sc : ∀ c, NewtonRun.scaled c [] = [] := fun c => rfl
  have inv : ∀ n s, NewtonRun.after C p o del no na nb h1 V enc n = some s → (s.A = [] ∧ ∀ A ∈ s.psi, A = []) ∧
      (∀ e, energy no na nb o.col h1 V enc [] = some e → C.d * (e - s.ek) ≤ 0) := by
    intro n
    induction n with
    | zero =>
      intro s h
      unfold NewtonRun.after NewtonRun.start at h
      rw [C113_acse_partial no na nb ha hb hne hsz h1 V hh hV enc, Option.bind_some] at h
      obtain ⟨x, x1, rfl⟩ := Option.map_eq_some_iff.mp h
      exact ⟨⟨key [] (by simp) x x1, by simp⟩, hd⟩
    | succ n ih =>
      intro s h
      unfold NewtonRun.after at h
      obtain ⟨t, t1, t2⟩ := Option.bind_eq_some_iff.mp h
      obtain ⟨⟨g1, g2⟩, _⟩ := ih t t1
      obtain ⟨y, y1, rfl⟩ := Option.map_eq_some_iff.mp t2
      unfold NewtonRun.step at y1
      obtain ⟨c, _, y1⟩ := Option.bind_eq_some_iff.mp y1
      obtain ⟨e, e1, e2⟩ := Option.bind_eq_some_iff.mp y1
      obtain ⟨z, z1, rfl⟩ := Option.map_eq_some_iff.mp e2
      rw [g1, sc] at e1 z1 ⊢
      have gp := add_empty t.psi g2
      refine ⟨⟨key _ gp z z1, gp⟩, fun e' he' => ?_⟩
      rw [energy_empty no na nb o.col h1 V enc _ gp, he'] at e1
      obtain rfl := Option.some.inj e1
      simp
  refine ⟨fun n s h => (inv n s h).1, ?_⟩
  refine (C163_run_partial P hP hc C hu htr hts p o hcol hcolA del hdep no na nb hno ha hb hne hsz hp h1 V hh hV hx enc fun n _ s h => ?_).2 fun n _ s h hN => ?_
  · obtain ⟨⟨g1, g2⟩, _⟩ := inv n s h
    intro c
    rw [g1, sc, sc]
    exact ⟨fun A hA => by rw [add_empty s.psi g2 A hA]; exact empty_ok no, fun A hA => by rw [add_empty s.psi g2 A hA]; exact empty_ok no⟩
  · obtain ⟨⟨g1, g2⟩, g3⟩ := inv n s h
    obtain ⟨e1, e2, q1, q2, q3⟩ := hN
    rw [g1, sc, energy_empty no na nb o.col h1 V enc _ (add_empty s.psi g2)] at q1
    rw [g1, sc, sc, energy_empty no na nb o.col h1 V enc _ (add_empty s.psi g2), q1] at q2
    obtain rfl := Option.some.inj q2
    have g := g3 _ q1
    have hp : (0 : ℝ) < 1 / 10 ^ 16 := by positivity
    have hd1 : C.d - 1 ≠ 0 := sub_ne_zero.mpr hu.2.2
    have e : (2 * (e1 - s.ek) - 2 * C.d * (e1 - s.ek)) / (C.d * C.eps * C.eps * (C.d - 1)) = 2 * -(C.d * (e1 - s.ek)) / ((C.d * C.eps) ^ 2) := by
      have h1 := hu.1
      have h2 := hu.2.1
      field_simp
      ring
    have : 0 ≤ 2 * -(C.d * (e1 - s.ek)) / ((C.d * C.eps) ^ 2) := div_nonneg (by linarith) (sq_nonneg _)
    rw [e] at q3
    linarith

/-- Non-interacting electrons, four in three spatial orbitals with energies −2, −1, 1: the hypotheses of `C163_stationary_partial` are met for one sign of `newton_step`. -/
example (P : Par ℝ) (hP : 0 < P.maxIter) (hc : P.conv = .trust) (enc : ℝ) : ∃ (C : Newton.Cfg ℝ) (o : Opt) (h1 : Fin (2 * 3) → Fin (2 * 3) → ℂ) (s : St ℝ),
    |C.d| = 2 ∧ h1 0 0 = -2 ∧ NewtonRun.run P C 3 o 1 3 2 2 h1 (fun _ _ _ _ => 0) enc P.maxIter = some s ∧ s.done = true := by
  let e : Fin (2 * 3) → ℝ := fun a => if a.val % 3 = 0 then -2 else if a.val % 3 = 1 then -1 else 1
  let h1 : Fin (2 * 3) → Fin (2 * 3) → ℂ := fun a b => if a = b then (e a : ℂ) else 0
  let V : Fin (2 * 3) → Fin (2 * 3) → Fin (2 * 3) → Fin (2 * 3) → ℂ := fun _ _ _ _ => 0
  let o : Opt := ⟨1, (8 * (3 : ℕ) + 12) * tolE 3 (2 + 2) h1 V + 1, 0, P.maxIter + 1, fun _ i => i, fun _ i => i⟩
  have hcol : ColouringOK (fun (_ : List PStr) i => i) := colouring_id
  have hE : secondQ h1 V (ket (hfCfg 3 2 2)) = ((∑ a, if hfCfg 3 2 2 a.val then e a else 0 : ℝ) : ℂ) • ket (hfCfg 3 2 2) := by
    funext b
    unfold secondQ
    simp only [V, h1, mul_zero, zero_smul, Finset.sum_const_zero, add_zero, ite_smul, Finset.sum_ite_eq, Finset.mem_univ, if_true]
    rw [LinearMap.sum_apply, Finset.sum_apply]
    push_cast
    rw [Pi.smul_apply, smul_eq_mul, Finset.sum_mul]
    refine Finset.sum_congr rfl fun a _ => ?_
    show (e a : ℂ) * (cre a.val * ann a.val : Oper ℂ) (ket (hfCfg 3 2 2)) b = _
    rw [number_apply]
    unfold ket
    by_cases hb : b = hfCfg 3 2 2
    · rw [hb]; split <;> simp_all
    · simp [hb]
  have go : ∀ d : ℝ, |d| = 2 → (∀ x, energy 3 2 2 o.col h1 V enc [] = some x →
      d * (x - ((pair (det (hfCfg 3 2 2)) (secondQ h1 V (det (hfCfg 3 2 2) : Cfg →₀ ℂ))).re + enc)) ≤ 0) → ∃ (C : Newton.Cfg ℝ) (s : St ℝ),
      |C.d| = 2 ∧ NewtonRun.run P C 3 o 1 3 2 2 h1 V enc P.maxIter = some s ∧ s.done = true := by
    intro d hd2 hd
    obtain ⟨_, s, s1, s2⟩ := C163_stationary_partial P hP (by rw [hc]; simp) ⟨1, d, 0, 0, 9 / 10, 1 / 10, 2, 1 / 2, true, false⟩
      ⟨one_ne_zero, fun h => by simp only at h; rw [h] at hd2; norm_num at hd2, fun h => by simp only at h; rw [h] at hd2; norm_num at hd2⟩ rfl le_rfl 3 o hcol hcol 1
      (Nat.lt_succ_self _) 3 2 2 (by norm_num) (by norm_num) (by norm_num) (by norm_num)
      (by unfold SpinOK; simp) (Or.inr ⟨rfl, by norm_num, by norm_num⟩) h1 V (fun a b => by
        simp only [h1]
        by_cases h : a = b
        · rw [h]
        · rw [if_neg h, if_neg (Ne.symm h)]) (fun _ _ _ _ => rfl) (fun _ _ _ _ => rfl)
      (fun a b => by simp only [h1]; split <;> simp) (fun _ _ _ _ => by simp [V]) (by simp only [o]; linarith) _ hE enc hd
    exact ⟨_, s, hd2, s1, s2⟩
  have pick : ∃ d : ℝ, |d| = 2 ∧ ∀ x, energy 3 2 2 o.col h1 V enc [] = some x →
      d * (x - ((pair (det (hfCfg 3 2 2)) (secondQ h1 V (det (hfCfg 3 2 2) : Cfg →₀ ℂ))).re + enc)) ≤ 0 := by
    cases hx : energy 3 2 2 o.col h1 V enc [] with
    | none => exact ⟨2, by norm_num, by simp⟩
    | some x =>
      rcases le_total x ((pair (det (hfCfg 3 2 2)) (secondQ h1 V (det (hfCfg 3 2 2) : Cfg →₀ ℂ))).re + enc) with h | h
      · exact ⟨2, by norm_num, fun y hy => by obtain rfl := Option.some.inj hy; linarith⟩
      · exact ⟨-2, by norm_num, fun y hy => by obtain rfl := Option.some.inj hy; linarith⟩
  obtain ⟨d, d1, d2⟩ := pick
  obtain ⟨C, s, s1, s2, s3⟩ := go d d1 d2
  exact ⟨C, o, h1, s, s1, by simp [h1, e], s2, s3⟩

/-- The minimal-basis molecule of C121: `C163_minimal_partial` applies to the default steps. -/
example (s : St ℝ) (h : NewtonRun.run ⟨10, .trust, 1e-3, 0, 0⟩ ⟨-1, 2, 1e-10, 1e-10, 0.9, 0.1, 2, 0.5, true, false⟩ 2
      ⟨1, 1e-10, 1e-1, 100, fun _ i => i, fun _ i => i⟩ (3 / 2) 2 1 1 exH exV (1 / 2) 10 = some s) :
    s.best ≤ (pair (det (hfCfg 2 1 1)) (secondQ exH exV (det (hfCfg 2 1 1) : Cfg →₀ ℂ))).re + 1 / 2 :=
  ((C163_minimal_partial ⟨10, .trust, 1e-3, 0, 0⟩ (by norm_num) (by simp) ⟨-1, 2, 1e-10, 1e-10, 0.9, 0.1, 2, 0.5, true, false⟩
    ⟨by norm_num, by norm_num, by norm_num⟩ rfl (by norm_num)
    ⟨1, 1e-10, 1e-1, 100, fun _ i => i, fun _ i => i⟩ colouring_id colouring_id (3 / 2) (by norm_num) exH exV ex_spin
    (fun a b => by
      unfold exH
      by_cases h : a = b
      · rw [h]
      · rw [if_neg h, if_neg (Ne.symm h)])
    (fun a b c d => by
      unfold exV
      exact if_congr (and_congr iff_comm iff_comm) (if_congr (and_congr eq_comm eq_comm) rfl (if_congr (and_congr ne_comm ne_comm) rfl rfl)) rfl)
    (fun a b c d => by
      unfold exV
      exact if_congr and_comm (if_congr and_comm rfl (if_congr and_comm rfl rfl)) rfl) ex_tol (1 / 2)).1 s h).2.1

end
end Props
end HQCA
