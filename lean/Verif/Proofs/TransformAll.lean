import Verif.Proofs.BK
import Verif.Proofs.FermiStr

set_option linter.unusedSectionVars false

namespace HQCA
variable {K : Type} [Coef K]

namespace Transform

/-- Number of letters other than `i`. -/
abbrev nLetters (s : FStr) : ℕ := (s.filter (· ≠ .i)).length

/-- Number of `+`/`-` letters. -/
abbrev nOdd (s : FStr) : ℕ := (s.filter (fun x => x = .cr ∨ x = .an)).length

theorem nOdd_eq (s : FStr) : nOdd s = oddCount (letters s) := by
  rw [oddCount_letters]
  unfold nOdd
  congr 1
  apply List.filter_congr
  intro x _
  cases x <;> simp [FL.odd]

/-- What every string transform does, as one record: `R` is the operator represented (for coefficient 1). -/
structure Spec (T : Term FStr K → Option (POp K)) (t : Term FStr K) (R : Oper K) : Prop where
  above : (nLetters t.1 = 0 ∨ small (t.2 / 2 ^ nLetters t.1) = false) →
      ∃ r, T t = some r ∧ UniqueKeys r ∧ (∀ u ∈ r, u.1.length = t.1.length) ∧
        r.length = 2 ^ nLetters t.1 ∧
        (∀ u ∈ r, ∃ e : ℤ, u.2 = t.2 / 2 ^ nLetters t.1 * I ^ e) ∧ denPO r = t.2 • R
  below : nLetters t.1 ≠ 0 → small (t.2 / 2 ^ nLetters t.1) = true → T t = some []

theorem jw_spec (t : Term FStr K) : Spec jordanWigner t (denF 0 t.1) := by
  obtain ⟨h1, h2⟩ := transform_spec (tem jwTab t.1.length) t (letters t.1).reverse
    (tabOK_reverse jwTab t.1 (jw_good _) (jw_local _)) (by rw [weight_reverse, weight_letters])
  refine ⟨fun h => ?_, h2⟩
  obtain ⟨r, e1, e2, e3, e4, e5, e6⟩ := h1 h
  refine ⟨r, e1, e2, e3, e4, e5, ?_⟩
  rw [e6]
  congr 1
  have := encodes_revProd (K := K) id (fun q o => denPO (tem jwTab t.1.length q o)) fop (letters t.1).reverse
    (fun a ha hi => jw_letter _ _ (mem_letters _ _ (List.mem_reverse.mp ha)) _ hi)
  rw [(encodes_id _ _).mp this, revProd_reverse fop (fun _ => rfl), word_letters, denF_eq_denW]

theorem qu_spec (t : Term FStr K) : Spec qubit t (denQ 0 t.1) := by
  obtain ⟨h1, h2⟩ := transform_spec (tem quTab t.1.length) t (letters t.1).reverse
    (tabOK_reverse quTab t.1 (qu_good _) (qu_local _)) (by rw [weight_reverse, weight_letters])
  refine ⟨fun h => ?_, h2⟩
  obtain ⟨r, e1, e2, e3, e4, e5, e6⟩ := h1 h
  refine ⟨r, e1, e2, e3, e4, e5, ?_⟩
  rw [e6]
  congr 1
  have := encodes_revProd (K := K) id (fun q o => denPO (tem quTab t.1.length q o))
    (fun k x => site k (qmat x)) (letters t.1).reverse
    (fun a ha hi => qu_letter _ _ (mem_letters _ _ (List.mem_reverse.mp ha)) _ hi)
  rw [(encodes_id _ _).mp this, revProd_reverse _ (fun k => site_one k), word_letters, denQ_eq_denW]

/-- The relabelled operator `U F U⁻¹` of a bijective encoding. -/
theorem exists_encoded (enc : Cfg → Cfg) (h : Function.Bijective enc) (F : Oper K) :
    ∃ P : Oper K, Encodes enc P F := by
  let e := Equiv.ofBijective enc h
  refine ⟨{ toFun := fun ψ x => F (fun b => ψ (enc b)) (e.symm x), map_add' := ?_, map_smul' := ?_ }, ?_⟩
  · intro φ ψ; funext x
    have : (fun b => (φ + ψ) (enc b)) = (fun b => φ (enc b)) + fun b => ψ (enc b) := rfl
    rw [this, map_add]; rfl
  · intro c ψ; funext x
    have : (fun b => (c • ψ) (enc b)) = c • fun b => ψ (enc b) := rfl
    rw [this, map_smul]; rfl
  · intro ψ b
    show F (fun b => ψ (enc b)) (e.symm (enc b)) = _
    rw [show e.symm (enc b) = b from e.symm_apply_apply b]

/-- Sign of reversing `n` odd letters. -/
def revSign (n : ℕ) : K := (-1) ^ (n * (n-1) / 2)

theorem par_spec (t : Term FStr K) :
    ∃ R : Oper K, Spec parity t R ∧ Encodes (parityEnc t.1.length) R ((revSign (nOdd t.1) : K) • denF 0 t.1) := by
  obtain ⟨h1, h2⟩ := transform_spec (tem parTab t.1.length) t (letters t.1)
    (tabOK_forward parTab t.1 (par_good _)) (by rw [weight_letters])
  refine ⟨_, ⟨h1, h2⟩, ?_⟩
  have := encodes_revProd (K := K) (parityEnc t.1.length) (fun q o => denPO (tem parTab t.1.length q o)) fop
    (letters t.1) (fun a ha hi => par_letter _ _ (mem_letters _ _ ha) _ hi)
  rw [revProd_forward, ← nOdd_eq, ← denF_eq_denW] at this
  exact this

theorem tabOK_congr (N : ℕ) (tm tm' : ℕ → FL → POp K) (l : List (ℕ × FL))
    (h : ∀ a ∈ l, a.2 ≠ .i → tm a.1 a.2 = tm' a.1 a.2) (hl : TabOK N tm l) : TabOK N tm' l := by
  refine ⟨hl.lt, fun a ha hi => by rw [← h a ha hi]; exact hl.tem a ha hi, ?_⟩
  have := List.Pairwise.and_mem.mp hl.later
  apply this.imp
  rintro a b ⟨ma, mb, hab⟩ hai hbi
  rw [← h a ma hai]
  exact hab hai hbi

theorem bk_spec (t : Term FStr K) :
    ∃ R : Oper K, Spec bravyiKitaev t R ∧ Encodes (bkEnc t.1.length) R ((revSign (nOdd t.1) : K) • denF 0 t.1) := by
  have hok : TabOK t.1.length (bkTem t.1.length : ℕ → FL → POp K) (letters t.1) := by
    apply tabOK_congr _ _ _ _ _ (tabOK_forward bkTab t.1 (bk_good _))
    intro a ha hi
    exact (bkTem_eq _ _ _ ((bk_good _).ne (mem_letters _ _ ha) hi)).symm
  obtain ⟨h1, h2⟩ := transform_spec (bkTem t.1.length) t (letters t.1) hok (by rw [weight_letters])
  refine ⟨_, ⟨h1, h2⟩, ?_⟩
  have := encodes_revProd (K := K) (bkEnc t.1.length) (fun q o => denPO (bkTem t.1.length q o)) fop
    (letters t.1) (fun a ha hi => bk_letter _ _ (mem_letters _ _ ha) _ hi)
  rw [revProd_forward, ← nOdd_eq, ← denF_eq_denW] at this
  exact this

theorem revSign_good (n : ℕ) (h : n % 4 = 0 ∨ n % 4 = 1) : (revSign n : K) = 1 := by
  unfold revSign
  have : Even (n * (n-1) / 2) := by
    obtain ⟨k, rfl | rfl⟩ : ∃ k, n = 4 * k ∨ n = 4 * k + 1 := ⟨n / 4, by omega⟩
    · refine ⟨k * (4*k-1), ?_⟩
      rw [show 4 * k * (4*k-1) = (k * (4*k-1) + k * (4*k-1)) * 2 by ring, Nat.mul_div_cancel _ (by norm_num)]
    · refine ⟨(4*k+1) * k, ?_⟩
      rw [Nat.add_sub_cancel, show (4*k+1) * (4*k) = ((4*k+1) * k + (4*k+1) * k) * 2 by ring,
        Nat.mul_div_cancel _ (by norm_num)]
  exact this.neg_one_pow

theorem revSign_bad (n : ℕ) (h : n % 4 = 2 ∨ n % 4 = 3) : (revSign n : K) = -1 := by
  unfold revSign
  have : Odd (n * (n-1) / 2) := by
    obtain ⟨k, rfl | rfl⟩ : ∃ k, n = 4 * k + 2 ∨ n = 4 * k + 3 := ⟨n / 4, by omega⟩
    · have h1 : 4 * k + 2 - 1 = 4 * k + 1 := by omega
      refine ⟨4*k*k + 3*k, ?_⟩
      rw [h1, show (4*k+2) * (4*k+1) = (2 * (4*k*k+3*k) + 1) * 2 by ring, Nat.mul_div_cancel _ (by norm_num)]
    · have h1 : 4 * k + 3 - 1 = 4 * k + 2 := by omega
      refine ⟨4*k*k + 5*k + 1, ?_⟩
      rw [h1, show (4*k+3) * (4*k+2) = (2 * (4*k*k+5*k+1) + 1) * 2 by ring, Nat.mul_div_cancel _ (by norm_num)]
  exact this.neg_one_pow

theorem Encodes.F_unique {enc : Cfg → Cfg} (hi : Function.Injective enc) {P F F' : Oper K}
    (h : Encodes enc P F) (h' : Encodes enc P F') : F = F' := by
  ext ψ b
  have e : (fun b' => (fun x => ψ (Function.invFun enc x)) (enc b')) = ψ := by
    funext b'; show ψ (Function.invFun enc (enc b')) = _
    rw [Function.leftInverse_invFun hi b']
  have h1 := h (fun x => ψ (Function.invFun enc x)) b
  have h2 := h' (fun x => ψ (Function.invFun enc x)) b
  rw [e] at h1 h2
  rw [← h1, ← h2]

end Transform
end HQCA
