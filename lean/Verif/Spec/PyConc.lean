import Verif.Model.PyConc
/-
Vocabulary for threads that use one Python SimpleFilter.
-/
namespace MF.PyFilter

variable {C M : Type}

/-- The callbacks that thread `t` has called so far, with the messages, in order. -/
def calledBy (c : Conc C M) (t : Nat) : List (C × M) := (c.calls.filter (fun x => decide (x.1 = t))).map (·.2)

/-- The messages a program outputs. -/
def outputs : List (TOp C M) → List M
  | [] => []
  | .register _ :: ops => outputs ops
  | .signal msg :: ops => msg :: outputs ops

/-- The callbacks a program registers. -/
def registers : List (TOp C M) → List C
  | [] => []
  | .register cb :: ops => cb :: registers ops
  | .signal _ :: ops => registers ops

/-- Every thread has come to its end. -/
def Done (c : Conc C M) : Prop := ∀ t, (c.threads t).todo = [] ∧ (c.threads t).pc = .idle

/-- Thread `t` is about to output `msg` and to do `rest` afterwards. -/
def AboutToSignal (c : Conc C M) (t : Nat) (msg : M) (rest : List (TOp C M)) : Prop :=
  (c.threads t).pc = .idle ∧ (c.threads t).todo = .signal msg :: rest

/-- Thread `t` is in the middle of a `signalMessage`, and has `rest` to do afterwards. -/
def Signalling (c : Conc C M) (t : Nat) (rest : List (TOp C M)) : Prop :=
  (c.threads t).todo = rest ∧ ∃ msg size pos, (c.threads t).pc = .looping msg size pos

end MF.PyFilter
