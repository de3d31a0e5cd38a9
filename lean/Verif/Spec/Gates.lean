import Verif.Spec.Site

/-!
# Controlled and swap gates (specification)
-/

namespace HQCA
variable {K : Type} [Field K]

/-- Controlled `U`: acts as `U` where all control qubits are `1` and as the identity elsewhere. -/
def ctlOp (ctl : List ℕ) (U : Oper K) : Oper K where
  toFun ψ := fun b => if ∀ i ∈ ctl, b i = true then U ψ b else ψ b
  map_add' ψ φ := by funext b; simp only [Pi.add_apply, map_add]; split <;> rfl
  map_smul' c ψ := by
    funext b; simp only [Pi.smul_apply, map_smul, RingHom.id_apply]; split <;> rfl

/-- Exchange of qubits `i` and `j`. -/
def swapOp (i j : ℕ) : Oper K where
  toFun ψ := fun b => ψ (fun k => if k = i then b j else if k = j then b i else b k)
  map_add' _ _ := rfl
  map_smul' _ _ := rfl

/-- Rotation in the plane of `|10⟩` and `|01⟩` of qubits `i`, `j` with cosine `c` and sine `s`, identity on `|00⟩`
and `|11⟩`: `|10⟩ ↦ c|10⟩ - s|01⟩`, `|01⟩ ↦ s|10⟩ + c|01⟩`. -/
def givens (i j : ℕ) (c s : K) : Oper K where
  toFun ψ := fun b =>
    if b i = b j then ψ b
    else if b i then c * ψ b + s * ψ (fun k => if k = i then b j else if k = j then b i else b k)
    else c * ψ b - s * ψ (fun k => if k = i then b j else if k = j then b i else b k)
  map_add' ψ φ := by
    funext b; simp only [Pi.add_apply]; split_ifs <;> ring
  map_smul' a ψ := by
    funext b; simp only [Pi.smul_apply, smul_eq_mul, RingHom.id_apply]; split_ifs <;> ring

end HQCA
