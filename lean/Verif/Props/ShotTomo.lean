import Verif.Model.ShotTomo
import Verif.Proofs.Sampling
import Verif.Props.EncTomo
import Verif.Props.ACSEEnergy

/-!
# C151: tomography from shots
-/

namespace HQCA.Props
open HQCA.Tomo HQCA.Prim HQCA.Process HQCA.Transform HQCA.Prepare
open HQCA.StateTomo (measurements dget)
noncomputable section

theorem record_bits (N l : ℕ) (h : l < 2 ^ N) : record (ShotTomo.bits N l) = cfgOf l := by
  funext i
  unfold record cfgOf ShotTomo.bits
  rw [List.getD_eq_getElem?_getD]
  by_cases hi : i < N
  · rw [List.getElem?_reverse (by simpa using hi)]
    simp only [List.length_map, List.length_range]
    rw [List.getElem?_map, List.getElem?_range (by omega), Option.map_some, Option.getD_some]
    congr 1
    omega
  · rw [List.getElem?_eq_none (by simp; omega), Option.getD_none]
    exact (Nat.testBit_lt_two_pow (h.trans_le (Nat.pow_le_pow_right (by norm_num) (by omega)))).symm

/-- Reading a table of counts gives the average of the outcome products over the shots. -/
theorem counts_shots (N : ℕ) (s : PStr) (hs : s.length ≤ N) (out : List ℕ) (ho : ∀ l ∈ out, l < 2 ^ N) (hne : out ≠ []) :
    counts N s (ShotTomo.getCounts N out) = some ((out.map fun l => (outcome 0 s (cfgOf l) : ℝ)).sum / out.length) := by
  have key : ∀ g : ℕ → ℝ, (out.dedup.map fun l => (out.count l : ℝ) * g l).sum = (out.map g).sum := by
    intro g
    rw [Finset.sum_list_map_count out, ← List.sum_toFinset _ (List.nodup_dedup out)]
    refine Finset.sum_congr (by ext; simp) fun l _ => by rw [nsmul_eq_mul]
  have e1 : ((ShotTomo.getCounts N out).map (·.2)).sum = (out.length : ℝ) := by
    unfold ShotTomo.getCounts
    rw [List.map_map]
    have := key (fun _ => 1)
    simpa [Function.comp_def] using this
  have e2 : ((ShotTomo.getCounts N out).map (fun x => x.2 * (outcome 0 s (record x.1) : ℝ))).sum = (out.map fun l => (outcome 0 s (cfgOf l) : ℝ)).sum := by
    unfold ShotTomo.getCounts
    rw [List.map_map, ← key]
    congr 1
    apply List.map_congr_left
    intro l hl
    show (out.count l : ℝ) * (outcome 0 s (record (ShotTomo.bits N l)) : ℝ) = _
    rw [record_bits N l (ho l (List.mem_dedup.mp hl))]
  have hl : (out.length : ℝ) ≠ 0 := by
    have : out.length ≠ 0 := by simpa using hne
    exact_mod_cast this
  rw [C26_mean N s hs _ (by
    intro x hx
    obtain ⟨l, _, rfl⟩ := List.mem_map.mp hx
    simp [ShotTomo.bits]) (by rw [e1]; exact hl), e1, e2]

/-! ### Born's rule -/

variable {N Ns : ℕ}

/-- The average of the outcome products of `s` over the shots in the basis `b`. -/
def average (ω : Record N Ns) (s b : PStr) : ℝ := (∑ j : Fin Ns, (outcome 0 s (cfgOf (ω (fun i => b.getD i.val .I, j)).val) : ℝ)) / Ns

theorem born_sum (ψ : Cfg → ℂ) (b : PStr) (hb : b.length ≤ N) (s : PStr) (hs : Recoverable s b) :
    ((∑ o : Fin (2 ^ N), born ψ b o.val * (outcome 0 s (cfgOf o.val) : ℝ) : ℝ) : ℂ) = innerQ N ψ ((denP 0 s : Oper ℂ) ψ) := by
  rw [← C61_measurement N s b hs hb ψ, Finset.sum_range]
  rfl

theorem denP_replicate_I (n k : ℕ) : (denP k (List.replicate n .I) : Oper ℂ) = 1 := by
  induction n generalizing k with
  | zero => rfl
  | succ n ih =>
    rw [List.replicate_succ, denP, ih, mul_one]
    exact site_one k

theorem outcome_replicate_I (n k : ℕ) (b : Cfg) : outcome k (List.replicate n .I) b = 1 := by
  induction n generalizing k with
  | zero => rfl
  | succ n ih =>
    rw [List.replicate_succ, outcome, ih]
    simp

theorem born_total (ψ : Cfg → ℂ) (h1 : innerQ N ψ ψ = 1) (b : PStr) (hb : b.length ≤ N) : ∑ o : Fin (2 ^ N), born ψ b o.val = 1 := by
  have := born_sum ψ b hb (List.replicate b.length .I) ⟨by simp, by
    intro p hp
    left
    have := (List.of_mem_zip hp).1
    exact (List.mem_replicate.mp this).2⟩
  rw [denP_replicate_I, Module.End.one_apply, h1] at this
  simp only [outcome_replicate_I, Int.cast_one, mul_one] at this
  exact_mod_cast this

theorem born_nonneg (ψ : Cfg → ℂ) (b : PStr) (l : ℕ) : 0 ≤ born ψ b l := sq_nonneg _

theorem recProb_eq (ψ : Cfg → ℂ) : (recProb ψ : Record N Ns → ℝ) = joint (fun i o => born ψ (List.ofFn i.1) o.val) := rfl

theorem recProb_nonneg (ψ : Cfg → ℂ) (ω : Record N Ns) : 0 ≤ recProb ψ ω := Finset.prod_nonneg fun _ _ => born_nonneg _ _ _

theorem recProb_total (ψ : Cfg → ℂ) (h1 : innerQ N ψ ψ = 1) : ∑ ω : Record N Ns, recProb ψ ω = 1 := by
  rw [recProb_eq]
  exact sum_joint _ fun i => born_total ψ h1 _ (by simp)

theorem ofFn_getD (b : PStr) (hb : b.length = N) : (List.ofFn fun i : Fin N => b.getD i.val .I) = b := by
  apply List.ext_getElem
  · simp [hb]
  · intro i h1 h2
    simp [List.getD_eq_getElem?_getD, h2]

/-- The average estimates the expectation value. -/
theorem average_mean (ψ : Cfg → ℂ) (h1 : innerQ N ψ ψ = 1) (hNs : 0 < Ns) (b : PStr) (hb : b.length = N) (s : PStr) (hs : Recoverable s b) :
    mean (recProb ψ) (fun ω : Record N Ns => (average ω s b : ℂ)) = innerQ N ψ ((denP 0 s : Oper ℂ) ψ) ∧
    ev (recProb ψ) (fun ω : Record N Ns => ‖(average ω s b : ℂ) - innerQ N ψ ((denP 0 s : Oper ℂ) ψ)‖ ^ 2) ≤ 1 / Ns := by
  have hw : ∀ i : (Fin N → PL) × Fin Ns, ∑ o : Fin (2 ^ N), born ψ (List.ofFn i.1) o.val = 1 := fun i => born_total ψ h1 _ (by simp)
  have hμ : ∀ j : Fin Ns, ∑ o : Fin (2 ^ N), born ψ (List.ofFn fun i : Fin N => b.getD i.val .I) o.val * (outcome 0 s (cfgOf o.val) : ℝ) =
      ∑ o : Fin (2 ^ N), born ψ b o.val * (outcome 0 s (cfgOf o.val) : ℝ) := by
    intro j
    rw [ofFn_getD b hb]
  constructor
  · rw [mean_ofReal, ← born_sum ψ b hb.le s hs]
    congr 1
    exact ev_average _ hw hNs (fun j => (fun i => b.getD i.val .I, j)) (fun o => (outcome 0 s (cfgOf o.val) : ℝ)) _ hμ
  · rw [← born_sum ψ b hb.le s hs]
    have := ev_variance _ hw (fun i o => born_nonneg _ _ _) hNs (fun j => (fun i => b.getD i.val .I, j))
      (fun j k h => (Prod.mk.inj h).2) (fun o => (outcome 0 s (cfgOf o.val) : ℝ))
      (fun o => by rcases outcome_sq 0 s (cfgOf o.val) with e | e <;> rw [e] <;> norm_num) _ hμ
    refine le_trans (le_of_eq ?_) this
    unfold ev
    refine Finset.sum_congr rfl fun ω _ => ?_
    congr 1
    show ‖(average ω s b : ℂ) - ((∑ o : Fin (2 ^ N), born ψ b o.val * (outcome 0 s (cfgOf o.val) : ℝ) : ℝ) : ℂ)‖ ^ 2 = _
    rw [← Complex.ofReal_sub, Complex.norm_real, Real.norm_eq_abs, sq_abs]
    rfl

/-! ### Values of the elements -/

theorem value_shots (mp : List (PStr × PStr)) (ω : Record N Ns) (hNs : 0 < Ns) (cnt : List (PStr × List (List Bool × ℝ))) (Q : POp ℂ)
    (h : ∀ u ∈ Q, u.1.length ≤ N ∧ ∃ b, dget mp u.1 = some b ∧ dget cnt b = some (ShotTomo.getCounts N (ω.shots b))) :
    ShotTomo.value N mp cnt Q = some (value (fun s => (average ω s ((dget mp s).getD []) : ℂ)) Q) := by
  unfold ShotTomo.value value
  rw [mapM_eq_map Q _ (fun t => if t.1.all (· = .I) then t.2 else (average ω t.1 ((dget mp t.1).getD []) : ℂ) * t.2)]
  · rfl
  · intro t ht
    obtain ⟨hl, b, h1, h2⟩ := h t ht
    by_cases hI : t.1.all (· = .I) = true
    · rw [if_pos hI, if_pos hI]
    · rw [if_neg hI, if_neg hI, h1, Option.bind_some, h2, Option.bind_some, Option.getD_some, counts_shots N t.1 hl]
      · rw [Option.map_some]
        congr 2
        unfold average Record.shots
        rw [List.length_ofFn, List.map_ofFn, List.sum_ofFn]
        rfl
      · intro l hl
        obtain ⟨j, rfl⟩ := List.mem_ofFn.mp hl
        exact (ω _).isLt
      · unfold Record.shots
        intro he
        have := congrArg List.length he
        rw [List.length_ofFn] at this
        simp at this
        omega

theorem value_mean {Ω : Type} [Fintype Ω] (W : Ω → ℝ) (h1 : ∑ ω, W ω = 1) (m : Ω → PStr → ℂ) (m' : PStr → ℂ) (Q : POp ℂ)
    (h : ∀ u ∈ Q, mean W (fun ω => m ω u.1) = m' u.1) : mean W (fun ω => value (m ω) Q) = value m' Q := by
  unfold value
  rw [mean_list W Q fun t ω => if t.1.all (· = .I) then t.2 else m ω t.1 * t.2]
  congr 1
  apply List.map_congr_left
  intro t ht
  by_cases hI : t.1.all (· = .I) = true
  · simp only [if_pos hI]; exact mean_const W h1 _
  · simp only [if_neg hI]; rw [mean_mul, h t ht]

theorem value_dist (m m' : PStr → ℂ) (Q : POp ℂ) : ‖value m Q - value m' Q‖ ≤ (Q.map fun t => ‖t.2‖ * ‖m t.1 - m' t.1‖).sum := by
  unfold value
  induction Q with
  | nil => simp
  | cons t Q ih =>
    simp only [List.map_cons, List.sum_cons]
    rw [add_sub_add_comm]
    refine (norm_add_le _ _).trans (add_le_add ?_ ih)
    by_cases hI : t.1.all (· = .I) = true
    · rw [if_pos hI, if_pos hI, sub_self, norm_zero]; positivity
    · rw [if_neg hI, if_neg hI, ← sub_mul, norm_mul, mul_comm]

theorem value_var {Ω : Type} [Fintype Ω] (W : Ω → ℝ) (hW : ∀ ω, 0 ≤ W ω) (m : Ω → PStr → ℂ) (m' : PStr → ℂ) (Q : POp ℂ) (B : ℝ) (hB0 : 0 ≤ B)
    (h : ∀ u ∈ Q, ev W (fun ω => ‖m ω u.1 - m' u.1‖ ^ 2) ≤ B) (hl : l1 Q ≤ 1) : ev W (fun ω => ‖value (m ω) Q - value m' Q‖ ^ 2) ≤ B := by
  have h0 : 0 ≤ l1 Q := by
    unfold l1
    apply List.sum_nonneg
    intro x hx
    obtain ⟨t, _, rfl⟩ := List.mem_map.mp hx
    exact norm_nonneg _
  refine (ev_mono W hW fun ω => ?_).trans ((ev_sq_list W hW Q (fun t => ‖t.2‖) (fun t _ => norm_nonneg _) (fun t ω => ‖m ω t.1 - m' t.1‖) B h).trans ?_)
  · have := value_dist (m ω) m' Q
    have h0 := norm_nonneg (value (m ω) Q - value m' Q)
    gcongr
  · change l1 Q ^ 2 * B ≤ B
    have : l1 Q ^ 2 ≤ 1 := by nlinarith
    nlinarith

/-! ### End to end -/

theorem dget_map {β : Type} (bases : List PStr) (g : PStr → β) (b : PStr) (hb : b ∈ bases) : dget (bases.map fun b => (b, g b)) b = some (g b) := by
  obtain ⟨v, hv⟩ := dget_isSome (bases.map fun b => (b, g b)) b (by rw [List.map_map]; simpa using hb)
  obtain ⟨b', _, e⟩ := List.mem_map.mp (dget_mem _ _ _ hv)
  obtain ⟨rfl, rfl⟩ := Prod.mk.inj e
  exact hv

/-- Tomography from shots estimates what exact expectation values would give; for every transform. -/
theorem shots_of_exact (T : Term FStr ℂ → Option (POp ℂ)) (p : ℕ) (f : Flags) (hp0 : 0 < p) (hp3 : p ≤ 3)
    (Na : ℕ) (alp bet : List ℕ) (hlen : alp.length + bet.length = N) (hL : ListsUnique p Na N f.skipDiag (rdme p f alp bet))
    (hL0 : rdme p f alp bet ≠ []) (col : List PStr → ℕ → ℕ) (hcol : ColouringOK col)
    (ψ : Cfg →₀ ℂ) (h1 : pair ψ ψ = 1) (hreg : ∀ b, ψ b ≠ 0 → ∀ i, N ≤ i → b i = false)
    (hel : ∀ ind ∈ rdme p f alp bet, ∃ Q : POp ℂ, rdmeQubT T f ind (N) = some (ind, Q) ∧
      (∀ u ∈ Q, u.1.length = N) ∧ l1 Q ≤ 1 ∧ (f.real = false → Q ≠ []))
    (D0 : List ℕ → ℂ)
    (hD0 : tomographyT T p f alp bet (fun s => pair ψ (denP 0 s ψ)) = some D0) (hNs : 0 < Ns) :
    ∃ D : Record N Ns → List ℕ → ℂ, (∀ ω, ShotTomo.runT T p f alp bet col ω.shots = some (D ω)) ∧
      ∀ c a : List ℕ, c.length = p → a.length = p → (∀ x ∈ c, x < N) → (∀ x ∈ a, x < N) →
        mean (recProb ψ) (fun ω => D ω (c ++ a)) = D0 (c ++ a) ∧
        ev (recProb ψ) (fun ω => ‖D ω (c ++ a) - D0 (c ++ a)‖ ^ 2) ≤ 1 / Ns := by
  set L := rdme p f alp bet with hLdef
  choose! Qof hQ1 hQ2 hQ3 hQ4 using hel
  have hels : L.mapM (fun ind => rdmeQubT T f ind N) = some (L.map (fun ind => (ind, Qof ind))) :=
    mapM_eq_map L _ _ hQ1
  obtain ⟨ops, mp, hm, hm1, hm2, hm3⟩ := C95_plan f.real N col hcol (L.map Qof) (by
    intro Q hQ
    obtain ⟨ind, hind, rfl⟩ := List.mem_map.mp hQ
    exact hQ2 ind hind)
  have hops : ops ≠ [] := by
    apply hm3
    by_cases hr : f.real = true
    · exact Or.inl hr
    · right
      obtain ⟨ind, hind⟩ := List.exists_mem_of_ne_nil L hL0
      exact ⟨Qof ind, List.mem_map_of_mem hind, hQ4 ind hind (by simpa using hr)⟩
  have hn1 : innerQ N ψ ψ = 1 := by rw [← pair_eq_innerQ N ψ hreg, h1]
  have htot := recProb_total (Ns := Ns) (ψ : Cfg → ℂ) hn1
  have hnn := recProb_nonneg (N := N) (Ns := Ns) (ψ : Cfg → ℂ)
  have hmeas : ∀ s, pair ψ (denP 0 s ψ) = innerQ N ψ ((denP 0 s : Oper ℂ) ψ) := fun s => pair_eq_innerQ N ψ hreg _
  set mm : Record N Ns → PStr → ℂ := fun ω s => (average ω s ((dget mp s).getD []) : ℂ) with hmm
  have hav : ∀ ind ∈ L, ∀ u ∈ Qof ind, mean (recProb ψ) (fun ω => mm ω u.1) = pair ψ (denP 0 u.1 ψ) ∧
      ev (recProb ψ) (fun ω => ‖mm ω u.1 - pair ψ (denP 0 u.1 ψ)‖ ^ 2) ≤ 1 / Ns := by
    intro ind hind u hu
    obtain ⟨b, hb1, hb2, hb3⟩ := hm1 (Qof ind) (List.mem_map_of_mem hind) u hu
    rw [hmeas, hmm]
    simp only [hb1, Option.getD_some]
    exact average_mean (ψ : Cfg → ℂ) hn1 hNs b (hm2 b hb2) u.1 hb3
  have hsim : ∀ ω : Record N Ns, ShotTomo.simulate N ops ω.shots = some (ops.map fun b => (b, ShotTomo.getCounts N (ω.shots b))) := by
    intro ω
    unfold ShotTomo.simulate
    rw [if_neg]
    simp only [Bool.or_eq_true, List.isEmpty_iff, List.any_eq_true, decide_eq_true_eq, not_or, not_exists, not_and, not_lt]
    exact ⟨hops, fun b hb => (hm2 b hb).le⟩
  refine ⟨fun ω => build p (L.map (fun ind => (ind, value (mm ω) (Qof ind)))), ?_, ?_⟩
  · intro ω
    unfold ShotTomo.runT
    simp only [hlen]
    rw [← hLdef, hels, Option.bind_some, List.map_map]
    rw [show ((fun x : List ℕ × POp ℂ => x.2) ∘ fun ind => (ind, Qof ind)) = Qof from rfl, hm, Option.bind_some, hsim,
      Option.bind_some, if_neg (by simpa using hL0)]
    have := mapM_eq_map (L.map (fun ind => (ind, Qof ind)))
      (fun e => (ShotTomo.value N mp (ops.map fun b => (b, ShotTomo.getCounts N (ω.shots b))) e.2).map (fun v => (e.1, v)))
      (fun e => (e.1, value (mm ω) e.2)) (by
        intro e he
        obtain ⟨ind, hind, rfl⟩ := List.mem_map.mp he
        rw [value_shots mp ω hNs]
        · rfl
        · intro u hu
          obtain ⟨b, hb1, hb2, hb3⟩ := hm1 (Qof ind) (List.mem_map_of_mem hind) u hu
          exact ⟨(hQ2 ind hind u hu).le, b, hb1, dget_map ops _ b hb2⟩)
    rw [this, List.map_map]
    rfl
  · intro c a hc ha hcN haN
    have hD0' : D0 = build p (L.map (fun ind => (ind, value (fun s => pair ψ (denP 0 s ψ)) (Qof ind)))) := by
      unfold tomographyT at hD0
      rw [hlen, ← hLdef, mapM_eq_map L _ (fun ind => (ind, value (fun s => pair ψ (denP 0 s ψ)) (Qof ind)))
        (fun ind hind => by rw [hQ1 ind hind]; rfl)] at hD0
      exact (Option.some.inj hD0).symm
    rw [hD0']
    constructor
    · rw [fill_sum p Na N f.skipDiag L hL _ c a hc ha]
      have : (fun ω : Record N Ns => build p (L.map (fun ind => (ind, value (mm ω) (Qof ind)))) (c ++ a)) = fun ω =>
          (L.map (fun ind => value (mm ω) (Qof ind) * F (split p ind).1 c * F (split p ind).2 a +
            if sameSet (split p ind).2 (split p ind).1 then 0 else
              conj (value (mm ω) (Qof ind)) * F (split p ind).2 c * F (split p ind).1 a)).sum := by
        funext ω
        exact fill_sum p Na N f.skipDiag L hL (fun ind => value (mm ω) (Qof ind)) c a hc ha
      rw [this, mean_list (recProb ψ) L fun ind ω => value (mm ω) (Qof ind) * F (split p ind).1 c * F (split p ind).2 a +
            if sameSet (split p ind).2 (split p ind).1 then 0 else
              conj (value (mm ω) (Qof ind)) * F (split p ind).2 c * F (split p ind).1 a]
      congr 1
      apply List.map_congr_left
      intro ind hind
      have hv := value_mean (recProb ψ) htot mm (fun s => pair ψ (denP 0 s ψ)) (Qof ind) fun u hu => (hav ind hind u hu).1
      rw [mean_add, mean_mul, mean_mul, hv]
      congr 1
      by_cases hsame : sameSet (split p ind).2 (split p ind).1 = true
      · simp only [if_pos hsame]; exact mean_zero _
      · simp only [if_neg hsame]
        rw [mean_mul, mean_mul]
        congr 2
        exact (mean_conj (recProb ψ) _).trans (congrArg _ hv)
    · obtain ⟨n, n1, n2⟩ := fill_local p Na N hp0 hp3 f.skipDiag L hL c a hc ha hcN haN
      have hB : (0 : ℝ) ≤ 1 / Ns := by positivity
      refine (ev_mono _ hnn fun ω => ?_).trans ((ev_sq_list (recProb ψ) hnn L (fun ind => (n ind : ℝ)) (fun _ _ => Nat.cast_nonneg _)
        (fun ind ω => ‖value (mm ω) (Qof ind) - value (fun s => pair ψ (denP 0 s ψ)) (Qof ind)‖) (1 / Ns)
        (fun ind hind => value_var (recProb ψ) hnn mm _ (Qof ind) (1 / Ns) hB (fun u hu => (hav ind hind u hu).2) (hQ3 ind hind))).trans ?_)
      · have := n2 (fun ind => value (mm ω) (Qof ind)) (fun ind => value (fun s => pair ψ (denP 0 s ψ)) (Qof ind))
        gcongr
      · have h3 : (L.map fun ind => (n ind : ℝ)).sum = ((L.map n).sum : ℕ) := by
          rw [Nat.cast_list_sum, List.map_map]; rfl
        have h4 : ((L.map n).sum : ℝ) ≤ 1 := by exact_mod_cast n1
        have h5 : (0 : ℝ) ≤ ((L.map n).sum : ℕ) := Nat.cast_nonneg _
        rw [h3]
        exact mul_le_of_le_one_left hB (pow_le_one₀ h5 h4)

/-- Tomography of any normalised state of the register from shots. -/
theorem shots_any (p : ℕ) (f : Flags) (hf : f.real = true ∨ f.imag = true)
    (hp : p = 2 ∨ p = 3 ∨ (p = 1 ∧ f.real = false)) (Na N : ℕ) (alp bet : List ℕ) (hlen : alp.length + bet.length = N)
    (hL : ListsUnique p Na N f.skipDiag (rdme p f alp bet))
    (hL0 : rdme p f alp bet ≠ []) (col : List PStr → ℕ → ℕ) (hcol : ColouringOK col)
    (ψ : Cfg →₀ ℂ) (h1 : pair ψ ψ = 1) (hreg : ∀ b, ψ b ≠ 0 → ∀ i, N ≤ i → b i = false)
    (Ns : ℕ) (hNs : 0 < Ns) :
    ∃ D : Record N Ns → List ℕ → ℂ, (∀ ω, ShotTomo.runT jordanWigner p f alp bet col ω.shots = some (D ω)) ∧
      ∀ c a : List ℕ, c.length = p → a.length = p → (∀ x ∈ c, x < N) → (∀ x ∈ a, x < N) →
        mean (recProb ψ) (fun ω => D ω (c ++ a)) = (if nAlpha Na c = nAlpha Na a then target f ψ c a else 0) ∧
        ev (recProb ψ) (fun ω => ‖D ω (c ++ a) - (if nAlpha Na c = nAlpha Na a then target f ψ c a else 0)‖ ^ 2) ≤ 1 / Ns := by
  obtain ⟨D0, hD0, hD0e⟩ := tomography_any p f hf hp Na N alp bet hlen hL ψ h1
    (fun s => pair ψ (denP 0 s ψ)) (fun _ => rfl)
  obtain ⟨D, hD, hDe⟩ := shots_of_exact (Ns := Ns) jordanWigner p f (by omega) (by omega) Na alp bet hlen hL hL0 col hcol ψ h1 hreg
    (elements_of_unique p f hf hp Na N alp bet hL) D0 hD0 hNs
  exact ⟨D, hD, fun c a hc ha hcN haN => by rw [← hD0e c a hc ha hcN haN]; exact hDe c a hc ha hcN haN⟩

theorem shots_of_unique (p : ℕ) (f : Flags) (hf : f.real = true ∨ f.imag = true)
    (hp : p = 2 ∨ p = 3 ∨ (p = 1 ∧ f.real = false)) (Na N : ℕ) (alp bet : List ℕ) (hlen : alp.length + bet.length = N)
    (hL : ListsUnique p Na N f.skipDiag (rdme p f alp bet))
    (hL0 : rdme p f alp bet ≠ []) (col : List PStr → ℕ → ℕ) (hcol : ColouringOK col)
    (ψ : Cfg →₀ ℂ) (h1 : pair ψ ψ = 1) (hreg : ∀ b, ψ b ≠ 0 → ∀ i, N ≤ i → b i = false)
    (n : ℤ) (hs : Sector Na n ψ) (Ns : ℕ) (hNs : 0 < Ns) :
    ∃ D : Record N Ns → List ℕ → ℂ, (∀ ω, ShotTomo.runT jordanWigner p f alp bet col ω.shots = some (D ω)) ∧
      ∀ c a : List ℕ, c.length = p → a.length = p → (∀ x ∈ c, x < N) → (∀ x ∈ a, x < N) →
        mean (recProb ψ) (fun ω => D ω (c ++ a)) = target f ψ c a ∧
        ev (recProb ψ) (fun ω => ‖D ω (c ++ a) - target f ψ c a‖ ^ 2) ≤ 1 / Ns := by
  obtain ⟨D, hD, h⟩ := shots_any p f hf hp Na N alp bet hlen hL hL0 col hcol ψ h1 hreg Ns hNs
  refine ⟨D, hD, fun c a hc ha hcN haN => ?_⟩
  have := h c a hc ha hcN haN
  by_cases hn : nAlpha Na c = nAlpha Na a
  · rwa [if_pos hn] at this
  · rw [if_neg hn] at this
    rw [← target_eq, rdm_sector ψ Na n hs c a hn, rdm_sector ψ Na n hs a c (Ne.symm hn), mul_zero, mul_zero, add_zero]
    exact this

/-- **C151, partial.**  Tomography with a backend that returns counts, `Ns` independent shots for every circuit following Born's rule: it never raises; the
expectation value of every entry of the tensor is exactly `⟨ψ|a†…a|ψ⟩` (or its real or imaginary part), and its mean square deviation is at most `1/Ns`,
for every proper colouring and every normalised state of the register with a fixed number of alpha electrons, provided there is something to measure.
Missing: order 1 with real parts, order 4, more beta than alpha orbitals (as C96). -/
theorem C151_tomography_partial (p : ℕ) (f : Flags) (hf : f.real = true ∨ f.imag = true)
    (hp : p = 2 ∨ p = 3 ∨ (p = 1 ∧ f.real = false)) (Na Nb : ℕ) (hN : Nb ≤ Na)
    (hL0 : rdme p f (alpha Na) (beta Na Nb) ≠ []) (col : List PStr → ℕ → ℕ) (hcol : ColouringOK col)
    (ψ : Cfg →₀ ℂ) (h1 : pair ψ ψ = 1) (hreg : ∀ b, ψ b ≠ 0 → ∀ i, Na + Nb ≤ i → b i = false)
    (n : ℤ) (hs : Sector Na n ψ) (Ns : ℕ) (hNs : 0 < Ns) :
    ∃ D : Record (Na + Nb) Ns → List ℕ → ℂ, (∀ ω, ShotTomo.runT jordanWigner p f (alpha Na) (beta Na Nb) col ω.shots = some (D ω)) ∧
      ∀ c a : List ℕ, c.length = p → a.length = p → (∀ x ∈ c, x < Na + Nb) → (∀ x ∈ a, x < Na + Nb) →
        mean (recProb ψ) (fun ω => D ω (c ++ a)) = target f ψ c a ∧
        ev (recProb ψ) (fun ω => ‖D ω (c ++ a) - target f ψ c a‖ ^ 2) ≤ 1 / Ns := by
  refine shots_of_unique p f hf hp Na (Na + Nb) (alpha Na) (beta Na Nb) (by simp [alpha, beta]) ?_ hL0 col hcol ψ h1 hreg n hs Ns hNs
  rcases hp with rfl | rfl | ⟨rfl, _⟩
  · exact C27_order2_partial f Na Nb hN
  · exact C27_order3_partial f Na Nb hN
  · exact C27_order1 f Na Nb

/-- The weights of the records are probabilities. -/
theorem C151_probability (ψ : Cfg →₀ ℂ) (h1 : pair ψ ψ = 1) (hreg : ∀ b, ψ b ≠ 0 → ∀ i, N ≤ i → b i = false) :
    (∀ ω : Record N Ns, 0 ≤ recProb ψ ω) ∧ ∑ ω : Record N Ns, recProb ψ ω = 1 :=
  ⟨recProb_nonneg _, recProb_total _ (by rw [← pair_eq_innerQ N ψ hreg, h1])⟩

theorem shots_enc {T : Term FStr ℂ → Option (POp ℂ)} {enc : ℕ → Cfg → Cfg} (hT : Reversing T enc) (p : ℕ) (f : Flags)
    (hf : f.real = true ∨ f.imag = true) (hp : p = 2 ∨ p = 3 ∨ (p = 1 ∧ f.real = false)) (Na Nb : ℕ) (hN : Nb ≤ Na)
    (hL0 : rdme p f (alpha Na) (beta Na Nb) ≠ []) (col : List PStr → ℕ → ℕ) (hcol : ColouringOK col)
    (ψ : Cfg →₀ ℂ) (h1 : pair ψ ψ = 1) (hreg : ∀ b, ψ b ≠ 0 → ∀ i, Na + Nb ≤ i → b i = false)
    (n : ℤ) (hs : Sector Na n ψ) (Ns : ℕ) (hNs : 0 < Ns) :
    ∃ D : Record (Na + Nb) Ns → List ℕ → ℂ, (∀ ω, ShotTomo.runT T p f (alpha Na) (beta Na Nb) col ω.shots = some (D ω)) ∧
      ∀ c a : List ℕ, c.length = p → a.length = p → (∀ x ∈ c, x < Na + Nb) → (∀ x ∈ a, x < Na + Nb) →
        mean (recProb (relabel (enc (Na + Nb)) ψ)) (fun ω => D ω (c ++ a)) = (-1) ^ moved c a * target f ψ c a ∧
        ev (recProb (relabel (enc (Na + Nb)) ψ)) (fun ω => ‖D ω (c ++ a) - (-1) ^ moved c a * target f ψ c a‖ ^ 2) ≤ 1 / Ns := by
  obtain ⟨D0, hD0, hD0e⟩ := tomography_enc hT p f hf hp Na Nb hN ψ h1 n hs _ (fun _ => rfl)
  obtain ⟨D, hD, hDe⟩ := shots_of_exact (Ns := Ns) T p f (by omega) (by omega) Na (alpha Na) (beta Na Nb) (by simp [alpha, beta])
    (rdme_unique p f (by omega) Na Nb hN) hL0 col hcol
    (relabel (enc (Na + Nb)) ψ) (by rw [relabel_norm (hT.inj _), h1]) (relabel_reg _ (hT.reg _) ψ hreg) (elements_enc hT p f hf hp Na Nb hN) D0 hD0 hNs
  exact ⟨D, hD, fun c a hc ha hcN haN => by rw [← hD0e c a hc ha hcN haN]; exact hDe c a hc ha hcN haN⟩

/-- **C151, parity and Bravyi–Kitaev, partial.** On the encoded state the entries that move an odd number of electrons estimate the negative element (as C112), so the result
converges to the wrong tensor however many shots are taken.  Missing: those entries. -/
theorem C151_encodings_partial (p : ℕ) (f : Flags)
    (hf : f.real = true ∨ f.imag = true) (hp : p = 2 ∨ p = 3 ∨ (p = 1 ∧ f.real = false)) (Na Nb : ℕ) (hN : Nb ≤ Na)
    (hL0 : rdme p f (alpha Na) (beta Na Nb) ≠ []) (col : List PStr → ℕ → ℕ) (hcol : ColouringOK col)
    (ψ : Cfg →₀ ℂ) (h1 : pair ψ ψ = 1) (hreg : ∀ b, ψ b ≠ 0 → ∀ i, Na + Nb ≤ i → b i = false)
    (n : ℤ) (hs : Sector Na n ψ) (Ns : ℕ) (hNs : 0 < Ns) (T : Term FStr ℂ → Option (POp ℂ)) (enc : Cfg → Cfg)
    (hT : (T = parity ∧ enc = parityEnc (Na + Nb)) ∨ (T = bravyiKitaev ∧ enc = bkEnc (Na + Nb))) :
    ∃ D : Record (Na + Nb) Ns → List ℕ → ℂ, (∀ ω, ShotTomo.runT T p f (alpha Na) (beta Na Nb) col ω.shots = some (D ω)) ∧
      ∀ c a : List ℕ, c.length = p → a.length = p → (∀ x ∈ c, x < Na + Nb) → (∀ x ∈ a, x < Na + Nb) →
        mean (recProb (relabel enc ψ)) (fun ω => D ω (c ++ a)) = (-1) ^ moved c a * target f ψ c a ∧
        ev (recProb (relabel enc ψ)) (fun ω => ‖D ω (c ++ a) - (-1) ^ moved c a * target f ψ c a‖ ^ 2) ≤ 1 / Ns := by
  rcases hT with ⟨rfl, rfl⟩ | ⟨rfl, rfl⟩
  · exact shots_enc reversing_parity p f hf hp Na Nb hN hL0 col hcol ψ h1 hreg n hs Ns hNs
  · exact shots_enc reversing_bk p f hf hp Na Nb hN hL0 col hcol ψ h1 hreg n hs Ns hNs

/-! ### Energies -/

open HQCA.Ham

theorem observable_mean {Ω : Type} [Fintype Ω] (W : Ω → ℝ) {r : ℕ} (H : Fin r → Fin r → Fin r → Fin r → ℂ)
    (D : Ω → Fin r → Fin r → Fin r → Fin r → ℂ) (D' : Fin r → Fin r → Fin r → Fin r → ℂ) (h : ∀ a b c d, mean W (fun ω => D ω a b c d) = D' a b c d) :
    mean W (fun ω => observable H (D ω)) = observable H D' := by
  unfold observable
  rw [mean_sum W Finset.univ fun a ω => ∑ b, ∑ c, ∑ d, H a b c d * D ω c d a b]
  refine Finset.sum_congr rfl fun a _ => ?_
  rw [mean_sum W Finset.univ fun b ω => ∑ c, ∑ d, H a b c d * D ω c d a b]
  refine Finset.sum_congr rfl fun b _ => ?_
  rw [mean_sum W Finset.univ fun c ω => ∑ d, H a b c d * D ω c d a b]
  refine Finset.sum_congr rfl fun c _ => ?_
  rw [mean_sum W Finset.univ fun d ω => H a b c d * D ω c d a b]
  refine Finset.sum_congr rfl fun d _ => ?_
  rw [← h, mul_comm, ← mean_mul]
  congr 1
  funext ω
  exact mul_comm _ _

theorem observable_var {Ω : Type} [Fintype Ω] (W : Ω → ℝ) (hW : ∀ ω, 0 ≤ W ω) {r : ℕ} (H : Fin r → Fin r → Fin r → Fin r → ℂ)
    (D : Ω → Fin r → Fin r → Fin r → Fin r → ℂ) (D' : Fin r → Fin r → Fin r → Fin r → ℂ) (B : ℝ)
    (h : ∀ a b c d, ev W (fun ω => ‖D ω a b c d - D' a b c d‖ ^ 2) ≤ B) :
    ev W (fun ω => ‖observable H (D ω) - observable H D'‖ ^ 2) ≤ (∑ a, ∑ b, ∑ c, ∑ d, ‖H a b c d‖) ^ 2 * B := by
  have key := ev_sq_sum W hW (Finset.univ : Finset (Fin r × Fin r × Fin r × Fin r)) (fun q => ‖H q.1 q.2.1 q.2.2.1 q.2.2.2‖) (fun _ => norm_nonneg _)
    (fun q ω => ‖D ω q.2.2.1 q.2.2.2 q.1 q.2.1 - D' q.2.2.1 q.2.2.2 q.1 q.2.1‖) B (fun q => h _ _ _ _)
  simp only [Fintype.sum_prod_type] at key
  refine (ev_mono W hW fun ω => ?_).trans key
  have : ‖observable H (D ω) - observable H D'‖ ≤ ∑ a, ∑ b, ∑ c, ∑ d, ‖H a b c d‖ * ‖D ω c d a b - D' c d a b‖ := by
    unfold observable
    simp only [← Finset.sum_sub_distrib, ← mul_sub]
    refine (norm_sum_le _ _).trans (Finset.sum_le_sum fun a _ => (norm_sum_le _ _).trans (Finset.sum_le_sum fun b _ =>
      (norm_sum_le _ _).trans (Finset.sum_le_sum fun c _ => (norm_sum_le _ _).trans (Finset.sum_le_sum fun d _ => ?_))))
    rw [norm_mul]
  gcongr

/-- The energy of a real state with fixed numbers of electrons, from shots. -/
theorem shots_energy (no na nb : ℕ) (hno : 0 < no) (hne : na + nb ≠ 1)
    (col : List PStr → ℕ → ℕ) (hcol : ColouringOK col) (h1 : Fin (2 * no) → Fin (2 * no) → ℂ)
    (V : Fin (2 * no) → Fin (2 * no) → Fin (2 * no) → Fin (2 * no) → ℂ) (hh : ∀ a b, h1 a b = h1 b a)
    (hV : ∀ a b c d, V a b c d = V c d a b) (enc : ℝ) (Ψ : Cfg →₀ ℂ) (ph : ℂ) (s5 : ‖ph‖ = 1) (s7 : pair Ψ Ψ = 1)
    (s8 : InS (InSec no (2 * no) na (na + nb)) Ψ) (s9 : RealAmp (Ψ : Cfg → ℂ)) (Ns : ℕ) (hNs : 0 < Ns) :
    ∃ E : Record (2 * no) Ns → ℝ, (∀ ω, (ShotTomo.runT jordanWigner 2 ⟨true, false⟩ (defaultOrbs no).1 (defaultOrbs no).2 col ω.shots).map
        (VQEObj.evaluate (k2 h1 V ((na + nb : ℕ) : ℂ)) enc) = some (E ω)) ∧
      ev (recProb ((ph • Ψ : Cfg →₀ ℂ) : Cfg → ℂ)) E = (pair Ψ (secondQ h1 V Ψ)).re + enc ∧
      ev (recProb ((ph • Ψ : Cfg →₀ ℂ) : Cfg → ℂ)) (fun ω => (E ω - ((pair Ψ (secondQ h1 V Ψ)).re + enc)) ^ 2)
        ≤ (∑ a, ∑ b, ∑ c, ∑ e, ‖k2 h1 V ((na + nb : ℕ) : ℂ) a b c e‖) ^ 2 / Ns := by
  have ho : (defaultOrbs no).1 = alpha no := rfl
  have h2no : no + no = 2 * no := by omega
  have hreg : ∀ b, (ph • Ψ : Cfg →₀ ℂ) b ≠ 0 → ∀ i, 2 * no ≤ i → b i = false :=
    fun b hb0 i hi => (s8 b (fun h => hb0 (by simp [h]))).2.2 i (by omega)
  have hn : pair (ph • Ψ) ((ph • Ψ : Cfg →₀ ℂ) : Cfg → ℂ) = 1 := by rw [pair_phase ph s5]; exact s7
  have hLU : ListsUnique 2 no (2 * no) false (Tomo.rdme 2 ⟨true, false⟩ (alpha no) (beta no no)) := by
    have := C27_order2_partial ⟨true, false⟩ no no le_rfl
    rw [h2no] at this
    exact this
  obtain ⟨D, hD, hDe⟩ := shots_of_unique 2 ⟨true, false⟩ (Or.inl rfl) (Or.inl rfl) no (2 * no) (alpha no) (beta no no) (by simp [alpha, beta]; omega)
    hLU (rdme2_ne no hno) col hcol (ph • Ψ) hn hreg (na : ℤ)
    (fun b hb0 => by exact_mod_cast (s8 b (fun h => hb0 (by simp [h]))).1) Ns hNs
  have hnn := recProb_nonneg (N := 2 * no) (Ns := Ns) ((ph • Ψ : Cfg →₀ ℂ) : Cfg → ℂ)
  have htot := (C151_probability (N := 2 * no) (Ns := Ns) (ph • Ψ) hn hreg).2
  have hev : observable (k2 h1 V ((na + nb : ℕ) : ℂ)) (rdm2 (evState Ψ)) = evState Ψ (secondQ h1 V) :=
    C52_energy (evState Ψ) _ (by exact_mod_cast hne) (fun X => by
      show pair Ψ ((X * numberOp (2 * no) : Oper ℂ) Ψ) = _ * pair Ψ (X Ψ)
      rw [Module.End.mul_apply, number_sec (2 * no) (na + nb) Ψ (fun b hb0 => (s8 b hb0).2.1), map_smul, pair_smul_right]) h1 V hh hV
  have hent : ∀ a b c e : Fin (2 * no), mean (recProb ((ph • Ψ : Cfg →₀ ℂ) : Cfg → ℂ)) (fun ω => D ω [a.val, b.val, c.val, e.val]) = rdm2 (evState Ψ) a b c e ∧
      ev (recProb ((ph • Ψ : Cfg →₀ ℂ) : Cfg → ℂ)) (fun ω => ‖D ω [a.val, b.val, c.val, e.val] - rdm2 (evState Ψ) a b c e‖ ^ 2) ≤ 1 / Ns := by
    intro a b c e
    have := hDe [a.val, b.val] [c.val, e.val] rfl rfl (by simp [a.isLt, b.isLt]) (by simp [c.isLt, e.isLt])
    have ht : target ⟨true, false⟩ (ph • Ψ) [a.val, b.val] [c.val, e.val] = rdm2 (evState Ψ) a b c e := by
      show ((rdm (ph • Ψ) _ _).re : ℂ) = _
      rw [rdm_phase ph s5, rdm2_evState]
      exact Complex.conj_eq_iff_re.mp (pair_real Ψ _ s9 (s9.rdmOp _ _))
    rw [ht] at this
    exact this
  refine ⟨fun ω => VQEObj.evaluate (k2 h1 V ((na + nb : ℕ) : ℂ)) enc (D ω), fun ω => ?_, ?_, ?_⟩
  · rw [beta_default, ho, hD, Option.map_some]
  · have := observable_mean (recProb ((ph • Ψ : Cfg →₀ ℂ) : Cfg → ℂ)) (k2 h1 V ((na + nb : ℕ) : ℂ)) (fun ω a b c e => D ω [a.val, b.val, c.val, e.val])
      (rdm2 (evState Ψ)) fun a b c e => (hent a b c e).1
    rw [hev] at this
    unfold VQEObj.evaluate
    rw [mean_re, mean_add, this, mean_const _ htot, Complex.add_re, Complex.ofReal_re]
    rfl
  · have := observable_var _ hnn (k2 h1 V ((na + nb : ℕ) : ℂ)) (fun ω a b c e => D ω [a.val, b.val, c.val, e.val])
      (rdm2 (evState Ψ)) (1 / Ns) fun a b c e => (hent a b c e).2
    rw [hev, mul_one_div] at this
    refine (ev_mono _ hnn fun ω => ?_).trans this
    have e : ∀ x y z : ℝ, x + z - (y + z) = x - y := by intros; ring
    unfold VQEObj.evaluate
    beta_reduce
    rw [Complex.add_re, Complex.ofReal_re, e, ← sq_abs]
    have h := Complex.abs_re_le_norm (observable (k2 h1 V ((na + nb : ℕ) : ℂ)) (fun a b c e => D ω [a.val, b.val, c.val, e.val]) - evState Ψ (secondQ h1 V))
    have h0 := abs_nonneg ((observable (k2 h1 V ((na + nb : ℕ) : ℂ)) (fun a b c e => D ω [a.val, b.val, c.val, e.val]) - evState Ψ (secondQ h1 V)).re)
    exact pow_le_pow_left₀ h0 h 2

/-- **C152, partial.** One evaluation of the VQE objective with a backend that returns counts, with any real parameters and `Ns` shots for every circuit:
it never raises; its expectation value is exactly the core energy plus the expectation value of the Hamiltonian in the normalised cluster state (as C111), and it deviates by
`δ` or more with probability at most `K²/(Ns δ²)`, `K` the sum of the moduli of the reduced Hamiltonian.  Missing: one electron, where the
reduced Hamiltonian divides by zero; depths other than 1 do not give the cluster state of the parameters (C110). -/
theorem C152_objective_partial (d : ℝ) (hd : d ≠ 0) (no na nb : ℕ) (hno : 0 < no) (ha : na ≤ no) (hb : nb ≤ no) (hne : na + nb ≠ 1)
    (col : List PStr → ℕ → ℕ) (hcol : ColouringOK col) (h1 : Fin (2 * no) → Fin (2 * no) → ℂ)
    (V : Fin (2 * no) → Fin (2 * no) → Fin (2 * no) → Fin (2 * no) → ℂ) (hh : ∀ a b, h1 a b = h1 b a)
    (hV : ∀ a b c d, V a b c d = V c d a b) (enc : ℝ) (ps : List ℂ) (hp : ∀ p ∈ ps, conj p = p) (Ns : ℕ) (hNs : 0 < Ns) :
    ∃ (l : List ℕ) (ts : List (List ℕ)) (Us : List (Oper ℂ)) (Ψ : Cfg →₀ ℂ) (st : Cfg → ℂ) (E : Record (2 * no) Ns → ℝ),
      Prepare.initial (defaultOrbs no).1 (defaultOrbs no).2 na nb = some l ∧
      UCC.getUCC (defaultOrbs no).1 (defaultOrbs no).2 l true true false false = some ts ∧
      List.Forall₂ (fun x U => IsExp ((x.2 / (d : ℂ)) • (excOp x.1 - excOp x.1.reverse : Oper ℂ)) U)
        ((ts.zip ps).filter (fun x => !tinyC x.2)) Us ∧
      (Ψ : Cfg → ℂ) = Us.reverse.prod (ket (hfCfg no na nb)) ∧ pair Ψ Ψ = 1 ∧ InS (InSec no (2 * no) na (na + nb)) Ψ ∧
      VQEObj.state d no na nb ps = some st ∧ (∀ ω : Record (2 * no) Ns, 0 ≤ recProb st ω) ∧ ∑ ω : Record (2 * no) Ns, recProb st ω = 1 ∧
      (∀ ω, ShotTomo.objective d no na nb col h1 V enc ps ω.shots = some (E ω)) ∧
      ev (recProb st) E = (pair Ψ (secondQ h1 V Ψ)).re + enc ∧
      ∀ δ : ℝ, 0 < δ → prob (recProb st) (fun ω => δ ≤ |E ω - ((pair Ψ (secondQ h1 V Ψ)).re + enc)|)
        ≤ (∑ a, ∑ b, ∑ c, ∑ e, ‖k2 h1 V ((na + nb : ℕ) : ℂ) a b c e‖) ^ 2 / Ns / δ ^ 2 := by
  obtain ⟨l, ts, Us, Ψ, ph, s1, s2, s3, s4, s5, s6, s7, s8, s9⟩ := vqe_state d hd no na nb ha hb ps hp
  obtain ⟨E, e1, e2, e3⟩ := shots_energy no na nb hno hne col hcol h1 V hh hV enc Ψ ph s5 s7 s8 s9 Ns hNs
  obtain ⟨p1, p2⟩ := C151_probability (N := 2 * no) (Ns := Ns) (ph • Ψ) (by rw [pair_phase ph s5]; exact s7)
    (fun b hb0 i hi => (s8 b (fun h => hb0 (by simp [h]))).2.2 i (by omega))
  refine ⟨l, ts, Us, Ψ, _, E, s1, s2, s3, s4, s7, s8, s6, p1, p2, fun ω => ?_, e2, fun δ hδ => prob_le _ p1 _ δ _ hδ e3⟩
  unfold ShotTomo.objective
  rw [s6, Option.bind_some, e1]

/-- **C152, variational bound.** The expectation value of the objective is never below the core energy plus any lower bound of the Hamiltonian on the normalised states
with `na` alpha and `nb` beta electrons; a single evaluation is lower by `δ` or more with probability at most `K²/(Ns δ²)`. -/
theorem C152_variational (d : ℝ) (hd : d ≠ 0) (no na nb : ℕ) (hno : 0 < no) (ha : na ≤ no) (hb : nb ≤ no) (hne : na + nb ≠ 1)
    (col : List PStr → ℕ → ℕ) (hcol : ColouringOK col) (h1 : Fin (2 * no) → Fin (2 * no) → ℂ)
    (V : Fin (2 * no) → Fin (2 * no) → Fin (2 * no) → Fin (2 * no) → ℂ) (hh : ∀ a b, h1 a b = h1 b a)
    (hV : ∀ a b c d, V a b c d = V c d a b) (enc : ℝ) (ps : List ℂ) (hp : ∀ p ∈ ps, conj p = p) (Ns : ℕ) (hNs : 0 < Ns) (E0 : ℝ)
    (hE : ∀ φ : Cfg →₀ ℂ, pair φ φ = 1 → (∀ b, φ b ≠ 0 → InSec no (2 * no) na (na + nb) b) → E0 ≤ (pair φ (secondQ h1 V φ)).re) :
    ∃ (st : Cfg → ℂ) (E : Record (2 * no) Ns → ℝ), VQEObj.state d no na nb ps = some st ∧
      (∀ ω, ShotTomo.objective d no na nb col h1 V enc ps ω.shots = some (E ω)) ∧ E0 + enc ≤ ev (recProb st) E ∧
      ∀ δ : ℝ, 0 < δ → prob (recProb st) (fun ω => E ω ≤ E0 + enc - δ)
        ≤ (∑ a, ∑ b, ∑ c, ∑ e, ‖k2 h1 V ((na + nb : ℕ) : ℂ) a b c e‖) ^ 2 / Ns / δ ^ 2 := by
  obtain ⟨_, _, _, Ψ, st, E, _, _, _, _, a1, a2, a3, a4, _, a5, a6, a7⟩ :=
    C152_objective_partial d hd no na nb hno ha hb hne col hcol h1 V hh hV enc ps hp Ns hNs
  have h0 := hE Ψ a1 a2
  refine ⟨st, E, a3, a5, by rw [a6]; linarith, fun δ hδ => le_trans ?_ (a7 δ hδ)⟩
  unfold prob
  refine Finset.sum_le_sum fun ω _ => ?_
  by_cases h : E ω ≤ E0 + enc - δ
  · rw [if_pos h, if_pos]
    beta_reduce
    rw [abs_sub_comm]
    exact le_trans (by linarith) (le_abs_self _)
  · rw [if_neg h]
    split
    · exact a4 ω
    · exact le_rfl

/-- A case meeting the hypotheses: `exState`, one thousand shots; the coherence `⟨a†₀a†₂ a₃ a₁⟩` is estimated without bias. -/
example : ∃ D : Record 4 1000 → List ℕ → ℂ, (∀ ω, ShotTomo.runT jordanWigner 2 ⟨true, true⟩ (alpha 2) (beta 2 2) (fun _ i => i) ω.shots = some (D ω)) ∧
    mean (recProb exState) (fun ω => D ω [0, 2, 1, 3]) = target ⟨true, true⟩ exState [0, 2] [1, 3] := by
  obtain ⟨D, hD, h⟩ := C151_tomography_partial 2 ⟨true, true⟩ (Or.inl rfl) (Or.inl rfl) 2 2 le_rfl exState_reg.1 (fun _ i => i) colouring_id exState
    exState_ok.1 exState_reg.2 1 exState_ok.2 1000 (by norm_num)
  exact ⟨D, hD, (h [0, 2] [1, 3] rfl rfl (by simp) (by simp)).1⟩

/-- Two electrons in two spatial orbitals with a hopping term and a repulsion, three parameters, a hundred shots. -/
example : ∃ E : Record 4 100 → ℝ, ∀ ω, ShotTomo.objective 1 2 1 1 (fun _ i => i) (fun a b => if a.val % 2 = b.val % 2 then 0 else -1)
    (fun a b c e => if a = c ∧ b = e then 1 else 0) (1 / 2) [1, 2, (-1 : ℂ)] ω.shots = some (E ω) := by
  obtain ⟨_, _, _, _, _, E, _, _, _, _, _, _, _, _, _, h, _⟩ := C152_objective_partial 1 one_ne_zero 2 1 1 (by norm_num) (by norm_num) (by norm_num)
    (by norm_num) (fun _ i => i) colouring_id (fun a b => if a.val % 2 = b.val % 2 then 0 else -1)
    (fun a b c e => if a = c ∧ b = e then 1 else 0) (fun a b => by simp only [eq_comm]) (fun a b c e => by simp only [eq_comm]) (1 / 2)
    [1, 2, (-1 : ℂ)] (by
      intro p hp
      show (starRingEnd ℂ) p = p
      simp only [List.mem_cons, List.not_mem_nil, or_false] at hp
      rcases hp with rfl | rfl | rfl
      · exact map_one _
      · exact Complex.conj_ofNat 2
      · rw [map_neg, map_one]) 100 (by norm_num)
  exact ⟨E, h⟩

end
end HQCA.Props
