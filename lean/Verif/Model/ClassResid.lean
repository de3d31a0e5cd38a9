import Verif.Model.EulerRun
import Verif.Model.RDMAlg

/-!
# Model of the residual computed by the classical solver from circuits (`hqca/acse/_class_A_acse.py`)

State-vector backend, Jordan–Wigner transform, default orbital order, tomography of the real part (and of the imaginary part when `im`).
-/

namespace HQCA
namespace ClassResid
noncomputable section
open Resid

/-- `np.real(D3.rdm)` (`_class_A_acse.py:70`). -/
def real3 {r : ℕ} (D : List ℕ → ℂ) : Fin r → Fin r → Fin r → Fin r → Fin r → Fin r → ℂ :=
  fun a b c d e f => (((D [a.val, b.val, c.val, d.val, e.val, f.val]).re : ℝ) : ℂ)

/-- The tensor `A` of `solvecACSE` (`_class_A_acse.py:36-99`) for an ansatz, with the tomography of order `p`: with fewer than three electrons and order 2 the three-body matrix is
zero (`:39-53`); with order 3 the two-body matrix is the contraction of the three-body one (`:54-61`); otherwise `ResidualError` (`:62-63`). -/
def tensor (p : ℕ) (im : Bool) (no na nb : ℕ) (col : List PStr → ℕ → ℕ) (h1 : Fin (2 * no) → Fin (2 * no) → ℂ)
    (V : Fin (2 * no) → Fin (2 * no) → Fin (2 * no) → Fin (2 * no) → ℂ) (L : List (OpD FStr ℂ)) : Option (Fin (2 * no) → Fin (2 * no) → Fin (2 * no) → Fin (2 * no) → ℂ) :=
  if na + nb < 3 ∧ p = 2 then
    (ACSEEn.state no na nb L).bind fun prep =>
      (StateTomo.run 2 ⟨true, im⟩ (Prepare.defaultOrbs no).1 (Prepare.defaultOrbs no).2 col prep).map fun D =>
        residual (Ham.k2 h1 V ((na + nb : ℕ) : ℂ)) (EulerRun.real2 D) fun _ _ _ _ _ _ => 0
  else if p = 3 then
    (ACSEEn.state no na nb L).bind fun prep =>
      (StateTomo.run 3 ⟨true, im⟩ (Prepare.defaultOrbs no).1 (Prepare.defaultOrbs no).2 col prep).bind fun D3 =>
        (RDM.reduceOrder 3 (2 * no) ((na + nb : ℕ) : ℤ) D3).map fun D2 =>
          residual (Ham.k2 h1 V ((na + nb : ℕ) : ℂ)) (EulerRun.real2 D2) (real3 D3)
  else none

/-- The residual operator and its norm (`_class_A_acse.py:110-125`). -/
def solve (S : ℝ) (p : ℕ) (im : Bool) (no na nb : ℕ) (col : List PStr → ℕ → ℕ) (h1 : Fin (2 * no) → Fin (2 * no) → ℂ)
    (V : Fin (2 * no) → Fin (2 * no) → Fin (2 * no) → Fin (2 * no) → ℂ) (L : List (OpD FStr ℂ)) : Option (OpD FStr ℂ × ℝ) :=
  (tensor p im no na nb col h1 V L).bind (Collect.classical S)

end
end ClassResid
end HQCA
