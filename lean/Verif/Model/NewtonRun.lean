import Verif.Model.EulerRun3
import Verif.Model.Newton

/-!
# Model of a closed Newton run of the ACSE with the classical solver

`acse_method='newton'`, `update='c'`, `closed_ansatz=True`, state-vector backend, Jordan–Wigner transform; the tomography given for the residual has order `p`, the energies are
evaluated with a two-body one.  The arithmetic of the step is that of `Model/Newton.lean`; here its energies are those of the circuits.
-/

namespace HQCA
namespace NewtonRun
noncomputable section
open ACSE EulerRun

/-- `testS*c` for a number (`_operator.py:101-121`, `_fermi_string.py:206-214`): a new operator, cleaned. -/
def scaled (c : ℝ) (A : OpD FStr ℂ) : OpD FStr ℂ := OpD.clean ((A.map fun t => (t.1, t.2 * (c : ℂ))).foldl OpD.addStr [])

/-- The driver between two iterations: `acse.psi`, `acse.A`, `acse.tr_Del`, `acse.e_k`. -/
structure Drv where
  psi : List (OpD FStr ℂ)
  A : OpD FStr ℂ
  del : ℝ
  ek : ℝ

/-- The energy of the ansatz extended by an operator: `store.evaluate(_generate_circuit(psi+O).rdm)` (`_newton_acse.py:13-15`, `17-19`, `78-80`). -/
def trial (o : Opt) (no na nb : ℕ) (h1 : Fin (2 * no) → Fin (2 * no) → ℂ) (V : Fin (2 * no) → Fin (2 * no) → Fin (2 * no) → Fin (2 * no) → ℂ) (enc : ℝ)
    (psi : List (OpD FStr ℂ)) (O : OpD FStr ℂ) : Option ℝ :=
  ACSEEn.energy no na nb o.col h1 V enc (Ansatz.add 1 psi O)

/-- One pass of the trust-region loop (`_newton_acse.py:62-117`): the energy at the coefficient, then `Newton.pass`, which uses it at that coefficient only. -/
def pass (C : Newton.Cfg ℝ) (E : ℝ → Option ℝ) (e0 g h del : ℝ) : Option (Newton.St ℝ) :=
  (E (Newton.coeffOf g h del)).bind fun ef => Newton.pass C (fun _ => ef) e0 g h del

/-- The loop (`_newton_acse.py:55-128`): a second pass at most. -/
def loop2 (C : Newton.Cfg ℝ) (E : ℝ → Option ℝ) (e0 g h del : ℝ) : Option (Newton.St ℝ) :=
  (pass C E e0 g h del).bind fun s => if s.trust then some s else pass C E e0 g h s.del

/-- `_newton_step` (`_newton_acse.py:7-143`) up to the appended coefficient; with a negative `hess` the loop is skipped and `ef` is unbound (`137`), an exception. -/
def choose (C : Newton.Cfg ℝ) (o : Opt) (no na nb : ℕ) (h1 : Fin (2 * no) → Fin (2 * no) → ℂ)
    (V : Fin (2 * no) → Fin (2 * no) → Fin (2 * no) → Fin (2 * no) → ℂ) (enc : ℝ) (s : Drv) : Option (Newton.St ℝ) :=
  (trial o no na nb h1 V enc s.psi (scaled C.eps s.A)).bind fun e1 =>
    (trial o no na nb h1 V enc s.psi (scaled C.eps (scaled C.d s.A))).bind fun e2 =>
      (Newton.derivs C s.ek e1 e2).bind fun gh =>
        if C.useTR = false then none
        else if gh.2 < 0 then none
        else loop2 C (fun c => trial o no na nb h1 V enc s.psi (scaled c s.A)) s.ek gh.1 gh.2 s.del

/-- `_run_acse` (`acse.py:596-598`, `_newton_acse.py:140-143`), what `_check` reads, and the energy it stores (`acse.py:764`). -/
def step (C : Newton.Cfg ℝ) (p : ℕ) (o : Opt) (no na nb : ℕ) (h1 : Fin (2 * no) → Fin (2 * no) → ℂ)
    (V : Fin (2 * no) → Fin (2 * no) → Fin (2 * no) → Fin (2 * no) → ℂ) (enc : ℝ) (s : Drv) : Option (Drv × Obs ℝ) :=
  (choose C o no na nb h1 V enc s).bind fun t =>
    let psi := Ansatz.add 1 s.psi (scaled t.coeff s.A)
    (ACSEEn.energy no na nb o.col h1 V enc psi).bind fun e =>
      (EulerRun3.getA p o no na nb h1 V psi).map fun x => (⟨psi, x.1, t.del, e⟩, ⟨e, x.2, t.taylor, t.object, decide (psi.length = o.depth)⟩)

/-- The driver after `build` (`acse.py:357-401`) with `initial_trust_region` (`acse.py:242`). -/
def start (p : ℕ) (o : Opt) (del : ℝ) (no na nb : ℕ) (h1 : Fin (2 * no) → Fin (2 * no) → ℂ)
    (V : Fin (2 * no) → Fin (2 * no) → Fin (2 * no) → Fin (2 * no) → ℂ) (enc : ℝ) : Option Drv :=
  (HFStore.acseE0 no na nb h1 V enc).bind fun e => (EulerRun3.getA p o no na nb h1 V []).map fun x => ⟨[], x.1, del, e⟩

/-- The driver after `n` iterations. -/
def after (C : Newton.Cfg ℝ) (p : ℕ) (o : Opt) (del : ℝ) (no na nb : ℕ) (h1 : Fin (2 * no) → Fin (2 * no) → ℂ)
    (V : Fin (2 * no) → Fin (2 * no) → Fin (2 * no) → Fin (2 * no) → ℂ) (enc : ℝ) : ℕ → Option Drv
  | 0 => start p o del no na nb h1 V enc
  | n + 1 => (after C p o del no na nb h1 V enc n).bind fun s => (step C p o no na nb h1 V enc s).map (·.1)

/-- `while not self.total.done: self._run_acse(); self._check()` (`acse.py:665-667`), at most `n` times. -/
def loop (P : Par ℝ) (C : Newton.Cfg ℝ) (p : ℕ) (o : Opt) (no na nb : ℕ) (h1 : Fin (2 * no) → Fin (2 * no) → ℂ)
    (V : Fin (2 * no) → Fin (2 * no) → Fin (2 * no) → Fin (2 * no) → ℂ) (enc : ℝ) : ℕ → St ℝ → Drv → Option (St ℝ)
  | 0, d, _ => some d
  | n + 1, d, s => if d.done then some d else
      (step C p o no na nb h1 V enc s).bind fun x => (check P d x.2).bind fun d' => loop P C p o no na nb h1 V enc n d' x.1

/-- `build()` and `run()` of a new object from the storage, at most `n` iterations. -/
def run (P : Par ℝ) (C : Newton.Cfg ℝ) (p : ℕ) (o : Opt) (del : ℝ) (no na nb : ℕ) (h1 : Fin (2 * no) → Fin (2 * no) → ℂ)
    (V : Fin (2 * no) → Fin (2 * no) → Fin (2 * no) → Fin (2 * no) → ℂ) (enc : ℝ) (n : ℕ) : Option (St ℝ) :=
  (start p o del no na nb h1 V enc).bind fun s => loop P C p o no na nb h1 V enc n (build s.ek 0) s

end
end NewtonRun
end HQCA
