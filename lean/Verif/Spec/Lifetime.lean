import Verif.Model.Lifetime
/-
Words for the statements of C84 and C85.
-/
namespace MF.Life

/-- The thread is executing a callback of the object for a message from one of its sources. -/
def InCallback : Pc → Prop
  | .inside _ _ _ => True
  | _ => False

/-- The thread's next step enters a callback of the object. -/
def Entering : Pc → Prop
  | .signal _ (_ :: _) => True
  | _ => False

/-- The thread has taken the object's timer from the executor and has not yet finished its callback. -/
def InTimer : Pc → Prop
  | .fetched | .timer => True
  | _ => False

/-- The classes that detach from their sources whenever they are connected anew and when they are destroyed. -/
def Detaches (k : Kind) (later : List (List Nat)) : Prop :=
  k = .synchronizer ∨ k = .timeSynchronizer ∨ k = .sequencer ∨ (∃ b, k = .aligner b) ∨ (k = .cache ∧ later = [])

/-- The classes driven by a timer. -/
def HasTimer (k : Kind) : Prop := k = .sequencer ∨ k = .aligner true

/-- Under this schedule the object's members are never destroyed while a thread is in its timer callback. -/
def TimerQuiet (prog : List Act) (schedule : List Move) : Prop :=
  ∀ l r c p, schedule = l ++ Move.main :: r → exec prog l = .ok c → c.prog = .free :: p → ∀ t, ¬ InTimer (c.threads t)

end MF.Life
