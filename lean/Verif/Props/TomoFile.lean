import Verif.Model.TomoFile
import Verif.Props.StateTomo

/-!
# C144: stored tomographies
-/

namespace HQCA.Props
open HQCA HQCA.Tomo HQCA.StateTomo HQCA.TomoFile HQCA.Transform
noncomputable section

/-- What `generate` leaves. -/
theorem generate_some (T : Term FStr ℂ → Option (POp ℂ)) (f : Flags) (alp bet : List ℕ) (col : List PStr → ℕ → ℕ) (q : ℕ) (t : Obj)
    (h : generate T f alp bet col (fresh q) = some t) : ∃ els m, (rdme q f alp bet).mapM (fun ind => rdmeQubT T f ind (alp.length + bet.length)) = some els ∧
      measurements f.real (alp.length + bet.length) col (els.map (·.2)) = some m ∧
      t = ⟨some m.1, some m.2, some els, some (els.map (·.1)), some f.real, some f.imag, q, 2 * q⟩ := by
  unfold generate at h
  dsimp only at h
  obtain ⟨els, h1, h⟩ := Option.bind_eq_some_iff.1 h
  obtain ⟨m, h2, rfl⟩ := Option.map_eq_some_iff.1 h
  exact ⟨els, m, h1, h2, rfl⟩

theorem build_take (p : ℕ) (vals : List (List ℕ × ℂ)) : (∀ ind : List ℕ, ind.length = 2 * p → build p vals (ind.take (2 * p)) = build p vals ind) := by
  intro ind h
  rw [List.take_of_length_le h.le]

/-- A generated tomography measures what `runT` returns. -/
theorem measure_generated (T : Term FStr ℂ → Option (POp ℂ)) (f : Flags) (alp bet : List ℕ) (col : List PStr → ℕ → ℕ) (q : ℕ) (t : Obj)
    (h : generate T f alp bet col (fresh q) = some t) (prep : Cfg → ℂ) :
    (measure (alp.length + bet.length) prep t).map (fun r => (r.1, r.2.1)) = (runT T q f alp bet col prep).map (fun _ => (q, 2 * q)) ∧
    ∀ r D, measure (alp.length + bet.length) prep t = some r → runT T q f alp bet col prep = some D → ∀ ind : List ℕ, ind.length = 2 * q → r.2.2 ind = D ind := by
  obtain ⟨els, m, h1, h2, rfl⟩ := generate_some T f alp bet col q t h
  unfold TomoFile.measure runT
  dsimp only
  rw [h1, Option.bind_some, h2, Option.bind_some]
  cases hs : simulate (alp.length + bet.length) m.1 prep with
  | none => simp
  | some sim =>
    rw [Option.bind_some, Option.bind_some]
    by_cases he : els.isEmpty = true
    · simp [he]
    · rw [if_neg he, if_neg he]
      cases hv : els.mapM (fun e => (valueSV (alp.length + bet.length) m.2 sim.1 e.2).map fun v => (e.1, v)) with
      | none => simp
      | some vals =>
        rw [Option.bind_some, fill, if_neg (by omega)]
        refine ⟨rfl, ?_⟩
        rintro r D hr hD ind hind
        cases hr; cases hD
        exact build_take q vals ind hind

/-- **C144, preset.**  A tomography made with `preset=True` from a generated one, whatever order is asked for, measures the same: order, axes and every entry, for every prepared state. -/
theorem C144_preset (T : Term FStr ℂ → Option (POp ℂ)) (f : Flags) (alp bet : List ℕ) (col : List PStr → ℕ → ℕ) (p q : ℕ) (t : Obj)
    (h : generate T f alp bet col (fresh p) = some t) :
    ∃ t', preset q t = some t' ∧ ∀ prep, measure (alp.length + bet.length) prep t' = measure (alp.length + bet.length) prep t := by
  obtain ⟨els, m, h1, h2, rfl⟩ := generate_some T f alp bet col p t h
  exact ⟨_, rfl, fun _ => rfl⟩

/-- The elements keep their index lists. -/
theorem generated_index (f : Flags) (hf : f.real = true ∨ f.imag = true) (p : ℕ) (hp : p = 2 ∨ p = 3 ∨ (p = 1 ∧ f.real = false)) (Na Nb : ℕ) (hN : Nb ≤ Na)
    (els : List (List ℕ × POp ℂ)) (h : (rdme p f (alpha Na) (beta Na Nb)).mapM (fun ind => rdmeQubT jordanWigner f ind (Na + Nb)) = some els) :
    ∀ e ∈ els, e.1.length = 2 * p := by
  have hL : ListsUnique p Na (Na + Nb) f.skipDiag (rdme p f (alpha Na) (beta Na Nb)) := by
    rcases hp with rfl | rfl | ⟨rfl, _⟩
    · exact C27_order2_partial f Na Nb hN
    · exact C27_order3_partial f Na Nb hN
    · exact C27_order1 f Na Nb
  have each : ∀ ind ∈ rdme p f (alpha Na) (beta Na Nb), ∀ e : List ℕ × POp ℂ, rdmeQubT jordanWigner f ind (Na + Nb) = some e → e.1.length = 2 * p := by
    intro ind hind e he
    obtain ⟨c, a, rfl, hc, ha, hn⟩ := hL.1 ind hind
    have hne : 2 ≤ p ∨ (p = 1 ∧ c ≠ a) := by
      rcases hp with h | h | ⟨rfl, hr⟩
      · left; omega
      · left; omega
      · right
        refine ⟨rfl, ?_⟩
        rintro rfl
        have hskip : f.skipDiag = true := by
          simp only [Flags.skipDiag, hr]
          simpa [hr] using hf
        have := hL.2 c c hc ha hn
        rw [if_pos rfl, if_pos ⟨rfl, hskip⟩, add_zero] at this
        exact (List.count_pos_iff.mpr hind).ne' this
    obtain ⟨Q, q1, q2, q3⟩ := rdmeQub_full p (Na + Nb) f hf (by omega) c a hc ha hne
    rw [show rdmeQubT jordanWigner f _ (Na + Nb) = _ from q1] at he
    cases he
    simp [hc.1, ha.1]
    omega
  generalize rdme p f (alpha Na) (beta Na Nb) = L at h each
  induction L generalizing els with
  | nil => cases h; simp
  | cons x L ih =>
    rw [List.mapM_cons] at h
    obtain ⟨y, hy, h⟩ := Option.bind_eq_some_iff.1 h
    obtain ⟨ys, hys, h⟩ := Option.bind_eq_some_iff.1 h
    cases h
    intro e he
    rcases List.mem_cons.1 he with rfl | he
    · exact each x List.mem_cons_self _ hy
    · exact ih ys hys (fun ind hi => each ind (List.mem_cons_of_mem _ hi)) e he

/-- **C144, file.**  A generated tomography, written and read into a new object of the same order, returns the reduced density matrix of every prepared state (with the limits of C96). -/
theorem C144_load_partial (p : ℕ) (f : Flags) (hf : f.real = true ∨ f.imag = true) (hp : p = 2 ∨ p = 3 ∨ (p = 1 ∧ f.real = false)) (Na Nb : ℕ) (hN : Nb ≤ Na)
    (hL0 : rdme p f (alpha Na) (beta Na Nb) ≠ []) (col : List PStr → ℕ → ℕ) (hcol : ColouringOK col)
    (ψ : Cfg →₀ ℂ) (h1 : pair ψ ψ = 1) (hreg : ∀ b, ψ b ≠ 0 → ∀ i, Na + Nb ≤ i → b i = false) (n : ℤ) (hs : Sector Na n ψ) :
    ∃ t F t' D, generate jordanWigner f (alpha Na) (beta Na Nb) col (fresh p) = some t ∧ save t = some F ∧ load F (fresh p) = some t' ∧
      measure (Na + Nb) ψ t' = some (p, 2 * p, D) ∧
      ∀ c a : List ℕ, c.length = p → a.length = p → (∀ x ∈ c, x < Na + Nb) → (∀ x ∈ a, x < Na + Nb) →
        ‖D (c ++ a) - target f ψ c a‖ ≤ 2 ^ (Na + Nb) * 1e-28 := by
  have hlen : (alpha Na).length + (beta Na Nb).length = Na + Nb := by simp [alpha, beta]
  obtain ⟨D, hD, hDe⟩ := C96_statevector_tomography_partial p f hf hp Na Nb hN hL0 col hcol ψ h1 hreg n hs
  have hD' := hD
  unfold StateTomo.run runT at hD
  dsimp only at hD
  obtain ⟨els, e1, hD⟩ := Option.bind_eq_some_iff.1 hD
  obtain ⟨m, e2, hD⟩ := Option.bind_eq_some_iff.1 hD
  have hg : generate jordanWigner f (alpha Na) (beta Na Nb) col (fresh p) = some
      ⟨some m.1, some m.2, some els, some (els.map (·.1)), some f.real, some f.imag, p, 2 * p⟩ := by
    unfold generate
    dsimp only
    rw [show (fresh p).p = p from rfl, e1, Option.bind_some, e2]
    rfl
  obtain ⟨g1, g2⟩ := measure_generated _ _ _ _ _ _ _ hg (ψ : Cfg → ℂ)
  rw [hlen] at g1 g2
  rw [show runT jordanWigner p f (alpha Na) (beta Na Nb) col ψ = _ from hD'] at g1 g2
  obtain ⟨r, hr, hr'⟩ := Option.map_eq_some_iff.1 g1
  cases els with
  | nil =>
    obtain ⟨sim, _, hD⟩ := Option.bind_eq_some_iff.1 hD
    simp at hD
  | cons e els =>
    rw [hlen] at e1
    have hi := generated_index f hf p hp Na Nb hN _ e1 e List.mem_cons_self
    have hi' : e.1.length / 2 = p := by omega
    refine ⟨_, _, _, r.2.2, hg, rfl, rfl, ?_, ?_⟩
    · have e3 : r = (p, 2 * p, r.2.2) := by
        rw [Prod.ext_iff] at hr'
        exact Prod.ext hr'.1 (Prod.ext hr'.2 rfl)
      rw [← e3, ← hr]
      simp only [hi']
      rfl
    · intro c a hc ha hcN haN
      rw [g2 r D hr rfl (c ++ a) (by rw [List.length_append]; omega)]
      exact hDe c a hc ha hcN haN

/-- **C144 fails** for everything else about a read object, whatever the file: the list of keys that the ACSE driver takes from its tomography (`acse/acse.py:382`) is not set, the object cannot be
written again, and one made for a lower order than the file's cannot construct anything. -/
theorem C144_load_fails (F : File) (q : ℕ) (t : Obj) (h : load F (fresh q) = some t) :
    t.keys = none ∧ save t = none ∧ ((∀ e ∈ F.rdme, 2 * (q + 1) ≤ e.1.length) → ∀ Nq prep, measure Nq prep t = none) := by
  unfold load at h
  split at h
  · cases h
  · rename_i e l he
    cases h
    refine ⟨rfl, rfl, fun hl Nq prep => ?_⟩
    have h2 := hl e (by rw [he]; exact List.mem_cons_self)
    unfold TomoFile.measure
    dsimp only
    cases simulate Nq F.op prep with
    | none => rfl
    | some sim =>
      rw [Option.bind_some]
      split
      · rfl
      · apply Option.bind_eq_none_iff.mpr
        intro vals _
        rw [fill, if_pos (by show 2 * q < _; omega)]
        rfl

/-- The hypotheses, with a file made by `save`: two alpha and two beta orbitals, order 2, read into an object of order 1. -/
example (col : List PStr → ℕ → ℕ) (hcol : ColouringOK col) : ∃ F t, load F (fresh 1) = some t ∧ ∀ e ∈ F.rdme, 2 * (1 + 1) ≤ e.1.length := by
  obtain ⟨t, F, t', D, hg, hs, hl, -⟩ := C144_load_partial 2 ⟨true, true⟩ (Or.inl rfl) (Or.inl rfl) 2 2 le_rfl exState_reg.1 col hcol exState exState_ok.1 exState_reg.2 1 exState_ok.2
  obtain ⟨els, m, e1, e2, rfl⟩ := generate_some _ _ _ _ _ _ _ hg
  cases hs
  cases els with
  | nil => cases hl
  | cons e els =>
    refine ⟨⟨m.1, m.2, e :: els, true, true⟩, _, rfl, ?_⟩
    intro x hx
    exact (generated_index ⟨true, true⟩ (Or.inl rfl) 2 (Or.inl rfl) 2 2 le_rfl _ e1 x hx).ge

end
end HQCA.Props
