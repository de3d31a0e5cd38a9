import Verif.Model.Spatial
import Verif.Props.SpinRDM
import Verif.Props.SpinBlocks

/-!
# The spatial RDM (C106)
-/

set_option linter.unusedSectionVars false

namespace HQCA
namespace Props
open Spatial SpinRDM RDM

/-- The lists pair every alpha orbital with a beta orbital; the alpha orbitals are `0 .. R-1` in some order, the beta
orbitals the others. -/
structure Paired (alp bet : List ℕ) : Prop where
  len : alp.length = bet.length
  nodup : (alp ++ bet).Nodup
  alpha : ∀ x ∈ alp, x < alp.length
  beta : ∀ x ∈ bet, x < alp.length + bet.length

theorem Paired.ok {alp bet : List ℕ} (h : Paired alp bet) : Spatial.ok alp bet = true := by
  unfold Spatial.ok
  have := h.len
  simp only [Bool.and_eq_true, beq_iff_eq, List.all_eq_true, decide_eq_true_eq]
  exact ⟨⟨h.len, h.alpha⟩, h.beta⟩

/-- The beta orbital at the position of the alpha orbital. -/
theorem partner_getElem {alp bet : List ℕ} (h : Paired alp bet) (n : ℕ) (hn : n < alp.length) (hn' : n < bet.length) :
    partner alp bet alp[n] = bet[n] := by
  obtain ⟨z1, z2⟩ := zip_parts alp bet h.len
  have n1 : ((alp.zip bet).map (·.1)).Nodup := by rw [← z1]; exact (List.nodup_append.mp h.nodup).1
  have hm : (alp[n], bet[n]) ∈ alp.zip bet := by
    rw [List.mem_iff_getElem]
    exact ⟨n, by simp [List.length_zip]; omega, by simp⟩
  have := partner_eq _ n1 _ hm
  rwa [← z1, ← z2] at this

theorem partner_mem {alp bet : List ℕ} (h : Paired alp bet) {x : ℕ} (hx : x ∈ alp) : partner alp bet x ∈ bet := by
  obtain ⟨n, hn, rfl⟩ := List.mem_iff_getElem.mp hx
  rw [partner_getElem h n hn (by rw [← h.len]; exact hn)]
  exact List.getElem_mem _

theorem partner_inj {alp bet : List ℕ} (h : Paired alp bet) {x y : ℕ} (hx : x ∈ alp) (hy : y ∈ alp) :
    partner alp bet x = partner alp bet y ↔ x = y := by
  refine ⟨fun e => ?_, fun e => by rw [e]⟩
  obtain ⟨n, hn, rfl⟩ := List.mem_iff_getElem.mp hx
  obtain ⟨m, hm, rfl⟩ := List.mem_iff_getElem.mp hy
  rw [partner_getElem h n hn (by rw [← h.len]; exact hn), partner_getElem h m hm (by rw [← h.len]; exact hm)] at e
  have := (List.Nodup.getElem_inj_iff (List.nodup_append.mp h.nodup).2.1).mp e
  simp [this]

theorem partner_ne {alp bet : List ℕ} (h : Paired alp bet) {x y : ℕ} (hx : x ∈ alp) (hy : y ∈ alp) :
    x ≠ partner alp bet y := fun e => (List.nodup_append.mp h.nodup).2.2 x hx _ (partner_mem h hy) e

theorem partner_map {alp bet : List ℕ} (h : Paired alp bet) : alp.map (partner alp bet) = bet := by
  apply List.ext_getElem
  · simp [h.len]
  · intro n h1 h2
    rw [List.getElem_map]
    exact partner_getElem h n (by simpa using h1) h2

section
variable {K : Type} [Coef K]

theorem traced2_apply (alp bet : List ℕ) (D : List ℕ → K) (i k j l : ℕ) (hi : i ∈ alp) (hk : k ∈ alp) (hj : j ∈ alp)
    (hl : l ∈ alp) : traced2 alp bet D [i, k, j, l] =
      D [i, k, j, l] + D [partner alp bet i, partner alp bet k, partner alp bet j, partner alp bet l] +
      D [i, partner alp bet k, j, partner alp bet l] + D [partner alp bet i, k, partner alp bet j, l] := by
  unfold traced2
  apply writes_eq
  · intro w hw e
    simp only [List.mem_flatMap, List.mem_map] at hw
    obtain ⟨a, -, b, -, c, -, d, -, rfl⟩ := hw
    simp only [List.cons.injEq, and_true] at e
    obtain ⟨rfl, rfl, rfl, rfl⟩ := e
    rfl
  · refine ⟨([i, k, j, l], D [i, k, j, l] + D [partner alp bet i, partner alp bet k, partner alp bet j, partner alp bet l] +
        D [i, partner alp bet k, j, partner alp bet l] + D [partner alp bet i, k, partner alp bet j, l]), ?_, rfl⟩
    · simp only [List.mem_flatMap, List.mem_map]
      exact ⟨i, hi, j, hj, k, hk, l, hl, rfl⟩

theorem traced1_apply (alp bet : List ℕ) (D : List ℕ → K) (i j : ℕ) (hi : i ∈ alp) (hj : j ∈ alp) :
    traced1 alp bet D [i, j] = D [i, j] + D [partner alp bet i, partner alp bet j] := by
  unfold traced1
  apply writes_eq
  · intro w hw e
    simp only [List.mem_flatMap, List.mem_map] at hw
    obtain ⟨a, -, b, -, rfl⟩ := hw
    simp only [List.cons.injEq, and_true] at e
    obtain ⟨rfl, rfl⟩ := e
    rfl
  · refine ⟨([i, j], D [i, j] + D [partner alp bet i, partner alp bet j]), ?_, rfl⟩
    · simp only [List.mem_flatMap, List.mem_map]
      exact ⟨i, hi, j, hj, rfl⟩

theorem perm_range (l : List ℕ) (hn : l.Nodup) (h : ∀ x ∈ l, x < l.length) : l.Perm (List.range l.length) := by
  apply List.Subperm.perm_of_length_le
  · exact List.subperm_of_subset hn (fun x hx => List.mem_range.mpr (h x hx))
  · simp

theorem Paired.perm_alpha {alp bet : List ℕ} (h : Paired alp bet) : alp.Perm (List.range alp.length) :=
  perm_range alp (List.nodup_append.mp h.nodup).1 h.alpha

theorem Paired.mem_alpha {alp bet : List ℕ} (h : Paired alp bet) (x : ℕ) : x ∈ alp ↔ x < alp.length := by
  rw [h.perm_alpha.mem_iff, List.mem_range]

theorem Paired.perm {alp bet : List ℕ} (h : Paired alp bet) :
    (alp ++ bet).Perm (List.range (alp.length + bet.length)) := by
  have := perm_range (alp ++ bet) h.nodup (by
    intro x hx
    rw [List.length_append]
    rcases List.mem_append.mp hx with hx | hx
    · have := h.alpha x hx; omega
    · exact h.beta x hx)
  rwa [List.length_append] at this

end

/-- The spin-free excitation operator between two spatial orbitals, for a pairing of orbitals. -/
noncomputable def excP (alp bet : List ℕ) (i j : ℕ) : Oper ℂ :=
  cre i * ann j + cre (partner alp bet i) * ann (partner alp bet j)

section
variable (alp bet : List ℕ) (h : Paired alp bet) (ψ : Cfg →₀ ℂ) (D D1 : List ℕ → ℂ)
include h

/-- **C106, spin summation.** `spin_to_spatial` of the 1- and 2-RDM of a state gives the expectation values of `E_ij` and of
`E_ij E_kl - δ_jk E_il`, for alpha orbitals in any order. -/
theorem C106_spatial
    (hD : ∀ i k j l, i < alp.length + bet.length → k < alp.length + bet.length → j < alp.length + bet.length →
      l < alp.length + bet.length → D [i, k, j, l] = rdm ψ [i, k] [j, l])
    (hD1 : ∀ i j, i < alp.length + bet.length → j < alp.length + bet.length → D1 [i, j] = rdm ψ [i] [j])
    (i k j l : ℕ) (hi : i < alp.length) (hk : k < alp.length) (hj : j < alp.length) (hl : l < alp.length) :
    traced1 alp bet D1 [i, j] = pair ψ (excP alp bet i j ψ) ∧
    traced2 alp bet D [i, k, j, l] =
      pair ψ ((excP alp bet i j * excP alp bet k l - if j = k then excP alp bet i l else 0) ψ) := by
  let ev : Oper ℂ →ₗ[ℂ] ℂ :=
    { toFun := fun A => pair ψ (A ψ)
      map_add' := fun A B => by rw [LinearMap.add_apply, pair_add_right]
      map_smul' := fun c A => by rw [LinearMap.smul_apply, pair_smul_right]; rfl }
  have ev_def : ∀ A : Oper ℂ, pair ψ (A ψ) = ev A := fun _ => rfl
  have r1 : ∀ a b, rdm ψ [a] [b] = ev1 ev a b := by
    intro a b; unfold rdm ev1; simp [rdmOp, ev]
  have r2 : ∀ a b c d, rdm ψ [a, b] [c, d] = ev2 ev a b c d := by
    intro a b c d; rw [rdm_two]; rfl
  have mi := (h.mem_alpha i).mpr hi
  have mk := (h.mem_alpha k).mpr hk
  have mj := (h.mem_alpha j).mpr hj
  have ml := (h.mem_alpha l).mpr hl
  have bi := h.beta _ (partner_mem h mi)
  have bk := h.beta _ (partner_mem h mk)
  have bj := h.beta _ (partner_mem h mj)
  have bl := h.beta _ (partner_mem h ml)
  constructor
  · rw [traced1_apply alp bet _ i j mi mj, hD1 _ _ (by omega) (by omega), hD1 _ _ bi bj, r1, r1, ev_def]
    unfold excP ev1
    rw [map_add]
  · rw [traced2_apply alp bet _ i k j l mi mk mj ml, hD _ _ _ _ (by omega) (by omega) (by omega) (by omega),
      hD _ _ _ _ bi bk bj bl, hD _ _ _ _ (by omega) bk (by omega) bl, hD _ _ _ _ bi (by omega) bj (by omega), ev_def, map_sub]
    simp only [r2]
    unfold excP
    rw [add_mul, mul_add, mul_add]
    simp only [map_add, ev_updown]
    have s := ev2_swap ev
    rw [s i k j l, s i (partner alp bet k) j (partner alp bet l), s (partner alp bet i) k (partner alp bet j) l,
      s (partner alp bet i) (partner alp bet k) (partner alp bet j) (partner alp bet l)]
    rw [if_neg (partner_ne h mj mk), if_neg (partner_ne h mk mj).symm]
    by_cases e : j = k
    · rw [if_pos e, if_pos e, if_pos (by rw [e]), map_add]; unfold ev1; ring
    · rw [if_neg e, if_neg e, if_neg (fun e' => e ((partner_inj h mj mk).mp e')), map_zero]; ring

/-- **C106, reduction.** Reducing the spatial 2-RDM of a state with `Ne ≠ 1` electrons gives its spatial 1-RDM. -/
theorem C106_reduce (Ne : ℤ) (hNe : Ne ≠ 1) (hψ : Sector (alp.length + bet.length) Ne ψ)
    (hD : ∀ i k j l, i < alp.length + bet.length → k < alp.length + bet.length → j < alp.length + bet.length →
      l < alp.length + bet.length → D [i, k, j, l] = rdm ψ [i, k] [j, l]) :
    ∃ G, reduce alp.length Ne (traced2 alp bet D) = some G ∧
      ∀ i j, i < alp.length → j < alp.length → G [i, j] = pair ψ (excP alp bet i j ψ) := by
  obtain ⟨D1, q1, q2⟩ := C31_state_partial (K := ℂ) 2 (Or.inl rfl) (alp.length + bet.length) Ne (by push_cast; omega) ψ hψ D (by
    intro c a hc ha hc' ha'
    match c, hc, a, ha with
    | [i, k], _, [j, m], _ =>
      exact hD i k j m (hc' _ (by simp)) (hc' _ (by simp)) (ha' _ (by simp)) (ha' _ (by simp)))
  unfold reduceOrder at q1
  rw [if_neg (by push_cast; omega)] at q1
  have q1 := Option.some.inj q1
  have q3 : ∀ i j, i < alp.length + bet.length → j < alp.length + bet.length →
      ((List.range (alp.length + bet.length)).map (fun x => D [i, x, j, x])).sum * (1 / ((Ne - 1 : ℤ) : ℂ)) = rdm ψ [i] [j] := by
    intro i j hi hj
    have := q2 [i] [j] rfl rfl (by simpa using hi) (by simpa using hj)
    rw [← this, ← q1]
    show _ = _ * _
    congr 3
    push_cast; ring
  refine ⟨_, if_neg (by omega), ?_⟩
  intro i j hi hj
  have mi := (h.mem_alpha i).mpr hi
  have mj := (h.mem_alpha j).mpr hj
  have bi := h.beta _ (partner_mem h mi)
  have bj := h.beta _ (partner_mem h mj)
  have c1 := (C106_spatial alp bet h ψ D (fun t => match t with | [i, j] => rdm ψ [i] [j] | _ => 0) hD (fun _ _ _ _ => rfl) i i j j
    hi hi hj hj).1
  rw [traced1_apply alp bet _ i j mi mj] at c1
  rw [← c1]
  dsimp only
  rw [← q3 i j (by omega) (by omega), ← q3 _ _ bi bj, ← add_mul]
  congr 1
  -- the sum over spatial orbitals is the sum over all spin orbitals
  have split : ∀ f : ℕ → ℂ, ((List.range (alp.length + bet.length)).map f).sum =
      (alp.map f).sum + (alp.map (fun x => f (partner alp bet x))).sum := by
    intro f
    rw [(h.perm.symm.map f).sum_eq, List.map_append, List.sum_append]
    congr 1
    conv_lhs => rw [← partner_map h, List.map_map]
    rfl
  rw [split, split, ((h.perm_alpha.symm).map _).sum_eq]
  have : (alp.map fun x => traced2 alp bet D [i, x, j, x]) = alp.map (fun x =>
      D [i, x, j, x] + D [partner alp bet i, partner alp bet x, partner alp bet j, partner alp bet x] +
      D [i, partner alp bet x, j, partner alp bet x] + D [partner alp bet i, x, partner alp bet j, x]) :=
    List.map_congr_left (fun x hx => traced2_apply alp bet D i x j x mi hx mj hx)
  rw [this, List.sum_map_add, List.sum_map_add, List.sum_map_add]
  ring

end

/-- **C106 is violated: the spatial `S_z` is always zero**, whatever the density matrix. -/
theorem C106_fails_sz {K : Type} [Coef K] (alp bet : List ℕ) (h : Paired alp bet) (D1 : List ℕ → K) :
    Spatial.sz D1 alp bet = some 0 := by
  unfold Spatial.sz
  rw [if_pos h.ok]
  congr 1
  unfold tr1
  have hz : ∀ i ∈ alp, ∀ j ∈ alp, traced1 alp bet (szMat alp bet : List ℕ → K) [i, j] = 0 := by
    intro i hi j hj
    rw [traced1_apply alp bet _ i j hi hj]
    have hm : ∀ (x y : ℕ), x ∈ alp → (szMat alp bet : List ℕ → K) [x, y] = if x = y then 1 / 2 else 0 := by
      intro x y hx
      unfold szMat
      by_cases e : x = y
      · subst e
        rw [if_pos rfl]
        apply writes_eq
        · intro w hw e
          rcases List.mem_append.mp hw with hw | hw
          · obtain ⟨a, -, rfl⟩ := List.mem_map.mp hw
            rfl
          · obtain ⟨a, ha, rfl⟩ := List.mem_map.mp hw
            simp only [List.cons.injEq, and_true] at e
            exact absurd (e.1 ▸ ha) (fun hb => (List.nodup_append.mp h.nodup).2.2 x hx x hb rfl)
        · exact ⟨([x, x], 1 / 2), List.mem_append_left _ (List.mem_map.mpr ⟨x, hx, rfl⟩), rfl⟩
      · rw [if_neg e]
        apply writes_zero
        intro w hw e'
        rcases List.mem_append.mp hw with hw | hw <;>
        · obtain ⟨a, -, rfl⟩ := List.mem_map.mp hw
          simp only [List.cons.injEq, and_true] at e'
          exact e (e'.1.symm.trans e'.2)
    have hb : ∀ (x y : ℕ), x ∈ bet → (szMat alp bet : List ℕ → K) [x, y] = if x = y then -(1 / 2) else 0 := by
      intro x y hx
      unfold szMat
      by_cases e : x = y
      · subst e
        rw [if_pos rfl]
        apply writes_eq
        · intro w hw e
          rcases List.mem_append.mp hw with hw | hw
          · obtain ⟨a, ha, rfl⟩ := List.mem_map.mp hw
            simp only [List.cons.injEq, and_true] at e
            exact absurd (e.1 ▸ ha) (fun hb => (List.nodup_append.mp h.nodup).2.2 x hb x hx rfl)
          · obtain ⟨a, -, rfl⟩ := List.mem_map.mp hw
            rfl
        · exact ⟨([x, x], -(1 / 2)), List.mem_append_right _ (List.mem_map.mpr ⟨x, hx, rfl⟩), rfl⟩
      · rw [if_neg e]
        apply writes_zero
        intro w hw e'
        rcases List.mem_append.mp hw with hw | hw <;>
        · obtain ⟨a, -, rfl⟩ := List.mem_map.mp hw
          simp only [List.cons.injEq, and_true] at e'
          exact e (e'.1.symm.trans e'.2)
    rw [hm i j hi, hb _ _ (partner_mem h hi)]
    by_cases e : i = j
    · rw [if_pos e, if_pos (by rw [e])]; ring
    · rw [if_neg e, if_neg (fun e' => e ((partner_inj h hi hj).mp e'))]; ring
  apply List.sum_eq_zero
  intro x hx
  obtain ⟨i, hi, rfl⟩ := List.mem_map.mp hx
  apply List.sum_eq_zero
  intro y hy
  obtain ⟨j, hj, rfl⟩ := List.mem_map.mp hy
  rw [hz i ((h.mem_alpha i).mpr (List.mem_range.mp hi)) j ((h.mem_alpha j).mpr (List.mem_range.mp hj)), zero_mul]

/-- **C106 is violated: the spin properties of the spatial RDM.**  For two parallel electrons the right values are `1`, `2` and the
code gives `0`, `5`; for the filled shell of four electrons `S²` is `0` and the code gives `4`.  The spin RDM of the same states gives
the right values. -/
theorem C106_fails_s2 :
    Spatial.spinProperties 2 (buildHF 2 [0, 1] : List ℕ → GQ) [0, 1] [2, 3] = some (0, 5) ∧
    SpinRDM.spinProperties 2 (buildHF 2 [0, 1] : List ℕ → GQ) [0, 1] [2, 3] = some (1, 2) ∧
    Spatial.spinProperties 4 (buildHF 2 [0, 1, 2, 3] : List ℕ → GQ) [0, 1] [2, 3] = some (0, 4) ∧
    SpinRDM.spinProperties 4 (buildHF 2 [0, 1, 2, 3] : List ℕ → GQ) [0, 1] [2, 3] = some (0, 0) := by
  decide +kernel

/-! Orbitals in another order; the spatial 2-RDM of one doubly occupied orbital. -/
example : Paired [1, 0] [2, 3] := ⟨rfl, by decide, by decide, by decide⟩
example : traced2 [1, 0] [2, 3] (buildHF 2 [1, 2] : List ℕ → GQ) [1, 1, 1, 1] = 2 := by decide +kernel

end Props
end HQCA
