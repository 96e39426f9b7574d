import Verif.Model.PyFilter
/-
Vocabulary for the Python SimpleFilter.
-/
namespace MF.PyFilter

variable {C A M : Type}

/-- The registrations of a history, in order. -/
def registrations : List (Op C A M) → List (C × A)
  | [] => []
  | .register cb args :: ops => (cb, args) :: registrations ops
  | .signal _ :: ops => registrations ops

/-- The calls a history should lead to if `regs` are registered before it: every output goes to everything registered by then,
once per registration, in the order of the registrations. -/
def expected (regs : List (C × A)) : List (Op C A M) → List (C × M × A)
  | [] => []
  | .register cb args :: ops => expected (regs ++ [(cb, args)]) ops
  | .signal msg :: ops => regs.map (fun r => (r.1, msg, r.2)) ++ expected regs ops

/-- Callbacks that neither raise nor register anything on the filter that called them. -/
def Quiet (beh : C → M → A → Effect C A) : Prop := ∀ cb msg args, beh cb msg args = ⟨[], false⟩

end MF.PyFilter
